/-
How much room a tar reader needs a member to take: no archive can hold a member in fewer bytes than
the header the code of tarentry.cc makes for it (used for C63).
-/
import Verif.TarRead
import Verif.PropsTar
set_option autoImplicit false

namespace Parfu
open TarSpec

/-! ### one extended record -/

theorem numVal_lt {ds : Bytes} (h : ∀ c ∈ ds, isDigit 10 c = true) : numVal 10 ds < 10 ^ ds.length := by
  unfold numVal
  have key : ∀ (ds : Bytes) (a k : Nat), a < 10 ^ k → (∀ c ∈ ds, isDigit 10 c = true) →
      ds.foldl (fun a c => a * 10 + (c.toNat - 48)) a < 10 ^ (k + ds.length) := by
    intro ds
    induction ds with
    | nil => intro a k h _; simpa using h
    | cons c ds ih =>
      intro a k h hd
      have hc := hd c (by simp)
      unfold isDigit at hc
      simp only [Bool.and_eq_true, decide_eq_true_eq] at hc
      simp only [List.foldl_cons, List.length_cons]
      have := ih (a * 10 + (c.toNat - 48)) (k + 1) (by rw [Nat.pow_succ]; omega) (fun x hx => hd x (by simp [hx]))
      rw [show k + (ds.length + 1) = k + 1 + ds.length by omega]
      exact this
  have := key ds 0 0 (by decide) h
  simpa using this

/-- The length `record_length` computes is the least a record for the pair can have, if that is at least
`kw.length + val.length + 5`. -/
theorem recordLengthLoop_le {kw val : Bytes} {n : Nat} (hn : recordLenWith n kw val ≤ n) :
    ∀ (k count old : Nat), 3 - count = k → old ≤ n → ∀ m, recordLengthLoop kw val count old = .ok m → m ≤ n := by
  intro k
  induction k with
  | zero =>
    intro count old hk _ m hm
    rw [recordLengthLoop, dif_neg (by omega)] at hm
    cases hm
  | succ k ih =>
    intro count old hk ho m hm
    have hle : recordLenWith old kw val ≤ n := by
      refine Nat.le_trans ?_ hn
      unfold recordLenWith
      have := digits_length_le (b := 10) (by omega) (digits 10 n).length old (digits_length_pos 10 n)
        (Nat.lt_of_le_of_lt ho (lt_pow_digits_length (by omega) n))
      omega
    rw [recordLengthLoop, dif_pos (by omega)] at hm
    split at hm
    · cases hm; exact hle
    · exact ih (count + 1) _ (by omega) hle m hm

/-- Any record of a long value has at least the length of the one the code writes. -/
theorem record_room {kw val : Bytes} {n d : Nat} (h : n = d + 3 + kw.length + val.length) (hd : n < 10 ^ d)
    (hv : 100 < val.length) : (recText kw val).length ≤ n := by
  obtain ⟨m, h1, _, _, h4, _⟩ := recText_spec kw val
  rw [h4]
  have hd2 : 2 ≤ d := by
    refine Classical.byContradiction fun hc => ?_
    have : d = 0 ∨ d = 1 := by omega
    rcases this with rfl | rfl <;> omega
  unfold recordLength at h1
  refine recordLengthLoop_le (n := n) ?_ 3 0 _ rfl (by omega) m h1
  unfold recordLenWith
  have := digits_length_le (b := 10) (by omega) d n (by omega) hd
  omega

/-! ### a list of extended records -/

/-- The room of the record of a long value. -/
def longRoom (kw val : Bytes) : Nat := if 100 < val.length then (recText kw val).length else 0

theorem parsePax_room : ∀ (k : Nat) (b : Bytes), b.length ≤ k → ∀ recs, parsePax b = some recs →
    (recs.map fun p => longRoom p.1 p.2).sum ≤ b.length := by
  intro k
  induction k with
  | zero =>
    intro b hb recs h
    have : b = [] := List.length_eq_zero_iff.1 (by omega)
    subst this
    rw [parsePax] at h
    simp at h
    subst h; simp
  | succ k ih =>
    intro b hb recs h
    rw [parsePax] at h
    split at h
    · cases h; simp
    · cases hr : readNum 10 b with
      | none => rw [hr] at h; simp at h
      | some x =>
        obtain ⟨n, w⟩ := x
        rw [hr] at h
        simp only at h
        split at h
        · rename_i hn
          split at h
          · rename_i hbody
            cases hp : parsePax (b.drop n) with
            | none => rw [hp] at h; simp at h
            | some l =>
              rw [hp] at h
              simp only [Option.some.injEq] at h
              subst h
              have hrest := ih (b.drop n) (by simp; omega) l hp
              simp only [List.map_cons, List.sum_cons]
              simp only [List.length_drop] at hrest
              refine Nat.le_trans (Nat.add_le_add_left hrest _) ?_
              generalize hkv : ((b.take n).dropWhile (isDigit 10)).drop 1 = t at *
              have key : longRoom (t.dropLast.takeWhile (· ≠ 61)) ((t.dropLast.dropWhile (· ≠ 61)).drop 1) ≤ n := by
                unfold longRoom
                split
                · rename_i hv
                  have hsplit := List.takeWhile_append_dropWhile (p := (· ≠ (61:UInt8))) (l := t.dropLast)
                  have hl := congrArg List.length hsplit
                  rw [List.length_append] at hl
                  rw [List.length_drop] at hv
                  obtain ⟨h32, _, _⟩ := hbody
                  have hcons : (b.take n).dropWhile (isDigit 10) = 32 :: t := by
                    cases hdw : (b.take n).dropWhile (isDigit 10) with
                    | nil => rw [hdw] at h32; cases h32
                    | cons a u =>
                      rw [hdw] at h32 hkv
                      simp only [List.head?_cons, Option.some.injEq] at h32
                      simp only [List.drop_succ_cons, List.drop_zero] at hkv
                      rw [h32, hkv]
                  have htk := List.takeWhile_append_dropWhile (p := isDigit 10) (l := b.take n)
                  rw [hcons] at htk
                  have hlt := congrArg List.length htk
                  rw [List.length_append, List.length_cons, List.length_take, Nat.min_eq_left hn.2] at hlt
                  rw [List.length_dropLast] at hl
                  refine record_room (d := ((b.take n).takeWhile (isDigit 10)).length) ?_ ?_ (by rw [List.length_drop]; exact hv)
                  · rw [List.length_drop]; omega
                  · have hall : ∀ c ∈ (b.take n).takeWhile (isDigit 10), isDigit 10 c = true :=
                      by
                        intro c hc
                        exact (List.all_eq_true.1 (List.all_takeWhile (p := isDigit 10) (l := b.take n))) c hc
                    have hb2 : b.takeWhile (isDigit 10) = (b.take n).takeWhile (isDigit 10) := by
                      conv => lhs; rw [← List.take_append_drop n b, ← htk, List.append_assoc]
                      exact takeWhile_append_of_all _ _ hall (by intro c hc; simp at hc; subst hc; decide)
                    have hval : n = numVal 10 (b.takeWhile (isDigit 10)) := by
                      unfold readNum at hr
                      split at hr
                      · cases hr
                      · have := congrArg Prod.fst (Option.some.inj hr); exact this.symm
                    have := numVal_lt hall
                    rw [← hb2, ← hval] at this
                    rw [← hb2]
                    exact this
                · omega
              omega
          · cases h
        · cases h

theorem lookup_room {k1 k2 : Bytes} (hk : k1 ≠ k2) : ∀ recs : List (Bytes × Bytes),
    (match recs.lookup k1 with | some v => longRoom k1 v | none => 0) +
    (match recs.lookup k2 with | some v => longRoom k2 v | none => 0) ≤ (recs.map fun p => longRoom p.1 p.2).sum
  | [] => by simp
  | (k, v) :: t => by
    have ih := lookup_room hk t
    have hbound : ∀ q : Bytes, (match t.lookup q with | some v => longRoom q v | none => 0) ≤
        (t.map fun p => longRoom p.1 p.2).sum := by
      intro q
      clear ih
      induction t with
      | nil => simp
      | cons p t ih =>
        obtain ⟨a, c⟩ := p
        simp only [List.lookup_cons, List.map_cons, List.sum_cons]
        by_cases h : q = a
        · subst h; simp
        · rw [beq_false_of_ne h]; simp only; omega
    simp only [List.lookup_cons, List.map_cons, List.sum_cons]
    by_cases h1 : k1 = k
    · subst h1
      have h2 : (k2 == k1) = false := beq_false_of_ne (Ne.symm hk)
      have := hbound k2
      simp only [h2, beq_self_eq_true]
      omega
    · have h1' : (k1 == k) = false := beq_false_of_ne h1
      by_cases h2 : k2 = k
      · subst h2
        have := hbound k1
        simp only [h1', beq_self_eq_true]
        omega
      · have h2' : (k2 == k) = false := beq_false_of_ne h2
        simp only [h1', h2']
        omega

/-! ### members and archives -/

/-- The room the headers of a member need. -/
def headRoom (m : Member) : Nat := blk + paxHdrSz (longRoom kPath m.path + longRoom kLinkpath m.linkpath)

/-- The room a member needs. -/
def room (m : Member) : Nat := headRoom m + pad512 m.size

theorem text_slice_le (off len : Nat) (b : Bytes) : (text (slice off len b)).length ≤ len := by
  unfold text slice
  refine Nat.le_trans (List.Sublist.length_le (List.takeWhile_sublist _)) ?_
  simp; omega

theorem parseBlock_facts {b : Bytes} {r : Raw} (h : parseBlock b = some r) :
    b.length = 512 ∧ r.name.length ≤ 100 ∧ r.linkname.length ≤ 100 := by
  unfold parseBlock at h
  split at h
  · rename_i hc
    simp only [Option.bind_eq_bind, Option.bind_eq_some_iff, Option.pure_def, Option.some.injEq] at h
    obtain ⟨_, _, _, _, _, _, _, _, _, _, _, _, rfl⟩ := h
    exact ⟨hc.1.1, text_slice_le .., text_slice_le ..⟩
  · cases h

theorem takeData_room {r : Raw} {recs : List (Bytes × Bytes)} {rest rest' : Bytes} {m : Member}
    (hn : r.name.length ≤ 100) (hl : r.linkname.length ≤ 100) (h : takeData r recs rest = some (m, rest')) :
    longRoom kPath m.path + longRoom kLinkpath m.linkpath ≤ (recs.map fun p => longRoom p.1 p.2).sum ∧
    pad512 rest'.length + pad512 m.size ≤ pad512 rest.length := by
  unfold takeData at h
  split at h
  · cases h
  · split at h
    · cases h
    · rename_i size _ hsz
      simp only [Option.some.injEq, Prod.mk.injEq] at h
      obtain ⟨rfl, rfl⟩ := h
      refine ⟨?_, ?_⟩
      · refine Nat.le_trans ?_ (lookup_room (k1 := kPath) (k2 := kLinkpath) (by decide) recs)
        refine Nat.add_le_add ?_ ?_
        · show longRoom kPath ((recs.lookup kPath).getD r.name) ≤ _
          cases recs.lookup kPath with
          | some v => exact Nat.le_refl _
          | none => simp only [Option.getD_none]; unfold longRoom; rw [if_neg (by omega)]; exact Nat.le_refl _
        · show longRoom kLinkpath ((recs.lookup kLinkpath).getD r.linkname) ≤ _
          cases recs.lookup kLinkpath with
          | some v => exact Nat.le_refl _
          | none => simp only [Option.getD_none]; unfold longRoom; rw [if_neg (by omega)]; exact Nat.le_refl _
      · simp only [List.length_drop]
        unfold pad512
        omega

theorem readMember_room {b rest : Bytes} {m : Member} (h : readMember b = some (m, rest)) :
    pad512 rest.length + room m ≤ pad512 b.length := by
  unfold readMember at h
  cases hb : parseBlock (b.take 512) with
  | none => rw [hb] at h; cases h
  | some r =>
    rw [hb] at h
    obtain ⟨b1, b2, b3⟩ := parseBlock_facts hb
    rw [List.length_take] at b1
    simp only at h
    split at h
    · split at h
      · cases h
      · rename_i hsz
        cases hp : parsePax ((b.drop 512).take r.size) with
        | none => rw [hp] at h; cases h
        | some recs =>
          rw [hp] at h
          simp only at h
          cases hb' : parseBlock (((b.drop 512).drop (pad512 r.size)).take 512) with
          | none => rw [hb'] at h; cases h
          | some r' =>
            rw [hb'] at h
            obtain ⟨c1, c2, c3⟩ := parseBlock_facts hb'
            simp only at h
            split at h
            · cases h
            · obtain ⟨d1, d2⟩ := takeData_room c2 c3 h
              have hroom := parsePax_room _ _ (Nat.le_refl _) recs hp
              simp only [List.length_take, List.length_drop] at hroom c1 d2 hsz
              have hS : longRoom kPath m.path + longRoom kLinkpath m.linkpath ≤ r.size := by omega
              unfold room headRoom
              generalize longRoom kPath m.path + longRoom kLinkpath m.linkpath = S at hS
              have : paxHdrSz S ≤ 512 + pad512 r.size := by
                by_cases h0 : 0 < S
                · rw [paxHdrSz_pos h0]; unfold pad512; omega
                · unfold paxHdrSz; rw [if_neg h0]; omega
              have hblk : blk = 512 := rfl
              unfold pad512 at *
              omega
    · obtain ⟨d1, d2⟩ := takeData_room b2 b3 h
      simp only [List.map_nil, List.sum_nil, List.length_drop] at d1 d2
      unfold room headRoom
      rw [Nat.le_zero.1 d1]
      have : paxHdrSz 0 = 0 := rfl
      have hblk : blk = 512 := rfl
      unfold pad512 at *
      omega

/-- An archive is at least as long as the room its members need. -/
theorem readArchive_room : ∀ (k : Nat) (b : Bytes), b.length ≤ k → ∀ ms, readArchive b = some ms →
    (ms.map room).sum ≤ pad512 b.length := by
  intro k
  induction k with
  | zero =>
    intro b hb ms h
    have : b = [] := List.length_eq_zero_iff.1 (by omega)
    subst this
    rw [readArchive] at h
    simp at h
    subst h; simp
  | succ k ih =>
    intro b hb ms h
    rw [readArchive] at h
    split at h
    · cases h; simp
    · cases hr : readMember b with
      | none => rw [hr] at h; cases h
      | some x =>
        obtain ⟨m, rest⟩ := x
        rw [hr] at h
        simp only at h
        split at h
        · rename_i hlt
          cases ha : readArchive rest with
          | none => rw [ha] at h; cases h
          | some l =>
            rw [ha] at h
            simp only [Option.some.injEq] at h
            subst h
            have h1 := ih rest (by omega) l ha
            have h2 := readMember_room hr
            simp only [List.map_cons, List.sum_cons]
            omega
        · cases h

/-! ### the headers the code makes -/

/-- The header the code makes for an entry takes no more room than any reader needs. -/
theorem made_room {env : Env} {e : TarEntry} {H : Bytes} {m : Member} (h : makeTarHeader env e = .ok H)
    (hp : m.path = e.filename) (hl : m.linkpath = e.linkname)
    (hs : e.stat.kind = .reg → e.stat.size ≤ maxFileSize) : H.length = headRoom m := by
  have h1 := (Props.C01_header_length env e H h).1
  rw [hdrSize_eq] at h1
  have h2 := Except.ok.inj h1
  rw [← h2]
  unfold headRoom
  congr 2
  unfold paxPairs longRoom
  have hno : ¬ (e.stat.kind = .reg ∧ e.stat.size > maxFileSize) := fun g => absurd (hs g.1) (by omega)
  rw [hp, hl, if_neg hno]
  have e1 : kwPath = kPath := rfl
  have e2 : kwLinkpath = kLinkpath := rfl
  rw [e1, e2]
  by_cases a : 100 < e.filename.length <;> by_cases c : 100 < e.linkname.length <;>
    simp [a, c, recTexts]

/-- Distinct members that are all in an archive: their room is there. -/
theorem sum_room_le {f : Member → Nat} : ∀ (xs ys : List Member), xs.Nodup → (∀ x ∈ xs, x ∈ ys) →
    (xs.map f).sum ≤ (ys.map f).sum := by
  intro xs
  induction xs with
  | nil => intro ys _ _; simp
  | cons x xs ih =>
    intro ys hnd hsub
    obtain ⟨a, c, rfl⟩ := List.append_of_mem (hsub x (by simp))
    rw [List.nodup_cons] at hnd
    have := ih (a ++ c) hnd.2 (fun y hy => by
      have := hsub y (by simp [hy])
      rcases List.mem_append.1 this with h | h
      · exact List.mem_append_left _ h
      · rcases List.mem_cons.1 h with h | h
        · exact absurd (h ▸ hy) hnd.1
        · exact List.mem_append_right _ h)
    simp only [List.map_cons, List.sum_cons, List.map_append, List.sum_append] at this ⊢
    omega

end Parfu
