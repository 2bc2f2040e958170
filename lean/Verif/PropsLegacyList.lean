/-
Property theorems C33, C36, C37, C38 and C43: parfu 0.5.1's lists, their order and their division
among ranks.
-/
import Verif.LegacyList
import Mathlib.Tactic.Ring
import Mathlib.Data.List.Induction
import Mathlib.Data.List.Nodup
set_option autoImplicit false

namespace Parfu.Props
open Parfu

/-! ### C38, C43: the list container -/

/-- A list made by `create_parfu_file_fragment_entry_list(n)` to which the entries `fs` have been
added one after the other. -/
inductive Built (n : Int) : List Frag → FList → Prop where
  | create {l} (h : createList n = .ok (some l)) : Built n [] l
  | add {fs l f l'} (h : Built n fs l) (h' : addRaw l f = .ok l') : Built n (fs ++ [f]) l'

/-- What holds of every list built. -/
structure LInv (n : Nat) (fs : List Frag) (l : FList) : Prop where
  nfull : l.nfull = fs.length
  shape : (l.total = n ∧ fs.length ≤ n ∧ l.slots = fs.map .full ++ List.replicate (n - fs.length) .blank) ∨
    (∃ j, l.total = n * 2 ^ (j + 1) ∧ n * 2 ^ j < fs.length ∧ fs.length ≤ l.total ∧
      l.slots = fs.map .full ++ List.replicate (l.total + 1 - fs.length) .garbage)

theorem addRaw_room {l : FList} (f : Frag) (h : l.nfull < l.total) (h' : l.nfull < l.slots.length) :
    addRaw l f = .ok { l with slots := l.slots.set l.nfull (.full f), nfull := l.nfull + 1 } := by
  have : growList l = l := by unfold growList; rw [if_neg (by omega)]
  unfold addRaw putEntry
  rw [this, if_pos h']

theorem addRaw_grow {l : FList} (f : Frag) (h : l.total ≤ l.nfull)
    (h' : l.nfull < l.total * 2 + 1) :
    addRaw l f = .ok { l with
      total := l.total * 2,
      slots := (l.slots ++ List.replicate (l.total * 2 + 1 - l.slots.length) Slot.garbage).set l.nfull (.full f),
      nfull := l.nfull + 1 } := by
  have : growList l = { l with
      total := l.total * 2,
      slots := l.slots ++ List.replicate (l.total * 2 + 1 - l.slots.length) Slot.garbage } := by
    unfold growList; rw [if_pos h]
  unfold addRaw putEntry
  rw [this, if_pos (by simp; omega)]

theorem LInv.add {n : Nat} (hn : 1 ≤ n) {fs : List Frag} {l : FList} (h : LInv n fs l) (f : Frag) :
    ∃ l', addRaw l f = .ok l' ∧ LInv n (fs ++ [f]) l' := by
  obtain ⟨h1, h2⟩ := h
  rcases h2 with ⟨t1, t2, t3⟩ | ⟨j, t1, t2, t3, t4⟩
  · by_cases hf : fs.length < n
    · refine ⟨_, addRaw_room f (by omega) (by rw [t3, h1]; simp; omega), ?_⟩
      refine ⟨by simp [h1], Or.inl ⟨t1, by simp; omega, ?_⟩⟩
      simp only [h1, t3]
      rw [List.set_append_right _ _ (by simp)]
      obtain ⟨k, hk⟩ : ∃ k, n - fs.length = k + 1 := ⟨n - fs.length - 1, by omega⟩
      have hk' : n - (fs ++ [f]).length = k := by simp; omega
      rw [hk, hk']
      simp [List.replicate_succ]
    · have he : fs.length = n := by omega
      have hsl : l.slots.length = n := by rw [t3]; simp; omega
      refine ⟨_, addRaw_grow f (by omega) (by omega), ?_⟩
      refine ⟨by simp [h1], Or.inr ⟨0, by simp [t1], by simp; omega, by simp [t1]; omega, ?_⟩⟩
      simp only [h1, t3, t1, he, Nat.sub_self, List.replicate_zero, List.append_nil, List.length_map]
      rw [List.set_append_right _ _ (by simp; omega)]
      have hk : n * 2 + 1 - n = n * 2 + 1 - (fs ++ [f]).length + 1 := by simp; omega
      rw [hk, List.replicate_succ]
      simp [he]
  · by_cases hf : fs.length < l.total
    · have hsl : l.slots.length = l.total + 1 := by rw [t4]; simp; omega
      refine ⟨_, addRaw_room f (by omega) (by omega), ?_⟩
      refine ⟨by simp [h1], Or.inr ⟨j, t1, by simp; omega, by simp; omega, ?_⟩⟩
      simp only [h1, t4]
      rw [List.set_append_right _ _ (by simp)]
      have hk : l.total + 1 - fs.length = l.total + 1 - (fs ++ [f]).length + 1 := by simp; omega
      rw [hk, List.replicate_succ]
      simp
    · have he : fs.length = l.total := by omega
      have hp : 1 ≤ l.total := by omega
      have hsl : l.slots.length = l.total + 1 := by rw [t4]; simp; omega
      refine ⟨_, addRaw_grow f (by omega) (by omega), ?_⟩
      refine ⟨by simp [h1], Or.inr ⟨j + 1, ?_, ?_, ?_, ?_⟩⟩
      · simp only [t1]; ring
      · simp; rw [he, t1]; omega
      · simp; omega
      · simp only [h1, t4]
        have e1 : l.total + 1 - fs.length = 1 := by omega
        rw [e1, List.append_assoc, List.replicate_append_replicate, List.set_append_right _ _ (by simp)]
        have hk : 1 + (l.total * 2 + 1 - (List.map Slot.full fs ++ List.replicate 1 Slot.garbage).length) =
            l.total * 2 + 1 - (fs ++ [f]).length + 1 := by simp; omega
        rw [hk, List.replicate_succ]
        simp

theorem LInv.frags {n : Nat} {fs : List Frag} {l : FList} (h : LInv n fs l) : l.frags = fs := by
  have key : ∀ (gs : List Frag), (gs.map Slot.full).filterMap
      (fun s => match s with | .full f => some f | _ => none) = gs := by
    intro gs; induction gs with
    | nil => rfl
    | cons g gs ih => simp [ih]
  unfold FList.frags
  rw [h.nfull]
  rcases h.shape with ⟨_, _, t⟩ | ⟨_, _, _, _, t⟩ <;>
  · rw [t, List.take_append_of_le_length (by simp), List.take_of_length_le (by simp)]
    exact key fs

theorem Built.inv {n : Int} {fs : List Frag} {l : FList} (h : Built n fs l) :
    1 ≤ n.toNat ∧ LInv n.toNat fs l := by
  induction h with
  | create h =>
    unfold createList at h
    split at h
    · cases h
    split at h
    · cases h
    · simp at h; subst h
      exact ⟨by omega, rfl, Or.inl ⟨rfl, by simp, by simp⟩⟩
  | add h h' ih =>
    obtain ⟨h1, h2⟩ := ih
    obtain ⟨l', e, i⟩ := h2.add h1 _
    rw [e] at h'; cases h'
    exact ⟨h1, i⟩

/-- **C38 (partial)** Adding an entry to a list, whatever its capacity and however many entries it
holds, succeeds without touching memory outside the list, keeps the earlier entries in order and
stores the new one last.  Missing: the list must have been created for at least two entries, see
`C38_one_entry`. -/
theorem C38_add_partial {n : Int} {fs : List Frag} {l : FList} (h : Built n fs l) (f : Frag) :
    ∃ l', addRaw l f = .ok l' ∧ l'.frags = fs ++ [f] ∧ l.frags = fs ∧ l'.nfull = fs.length + 1 := by
  obtain ⟨h1, h2⟩ := h.inv
  obtain ⟨l', e, i⟩ := h2.add h1 f
  exact ⟨l', e, i.frags, h2.frags, by rw [i.nfull]; simp⟩

/-- **C38** Any number of entries can be added to a list created for two or more. -/
theorem C38_any_number_partial (n : Int) (hn : 2 ≤ n) (fs : List Frag) :
    ∃ l, Built n fs l ∧ l.frags = fs := by
  induction fs using List.reverseRec with
  | nil =>
    have : createList n = .ok (some ⟨n.toNat, 0, List.replicate n.toNat .blank⟩) := by
      unfold createList; rw [if_neg (by omega), if_neg (by omega)]
    exact ⟨_, .create this, (Built.create this).inv.2.frags⟩
  | append_singleton fs f ih =>
    obtain ⟨l, h, _⟩ := ih
    obtain ⟨l', e, i, _⟩ := C38_add_partial h f
    exact ⟨l', .add h e, i⟩

/-- **C38, violated** Creating a list for one entry writes outside its memory. -/
theorem C38_one_entry : createList 1 = .error .ub := rfl

/-- **C38** A modified copy of an entry (as the layout makes them): the new last entry has the size,
offsets, fragment number, file number and bucket number given, and everything else of the entry copied. -/
theorem C38_modified_copy_partial {n : Int} {fs : List Frag} {l : FList} (h : Built n fs l) (e : Frag)
    (size locA locO nFrag fp bucket : Int) :
    ∃ l' f, addMod l e size locA locO nFrag fp bucket = .ok l' ∧ l'.frags = fs ++ [f] ∧
      f.size = size ∧ f.locA = locA ∧ f.locO = locO ∧ f.nFrag = nFrag ∧ f.fp = fp ∧ f.bucket = bucket ∧
      f.rel = e.rel ∧ f.arc = e.arc ∧ f.kind = e.kind ∧ f.target = e.target ∧ f.hdr = e.hdr ∧
      f.padLoc = e.padLoc ∧ f.padName = e.padName ∧ f.padHdr = e.padHdr ∧ f.padSize = e.padSize := by
  obtain ⟨l', h1, h2, _⟩ := C38_add_partial h
    { e with size := size, locA := locA, locO := locO, nFrag := nFrag, fp := fp, bucket := bucket }
  exact ⟨l', _, h1, h2, rfl, rfl, rfl, rfl, rfl, rfl, rfl, rfl, rfl, rfl, rfl, rfl, rfl, rfl, rfl⟩

/-- **C38** A copy of an entry: the new last entry is that entry. -/
theorem C38_copy_partial {n : Int} {fs : List Frag} {l : FList} (h : Built n fs l) (e : Frag) :
    ∃ l', addEntry l e = .ok l' ∧ l'.frags = fs ++ [e] ∧ l'.nfull = fs.length + 1 := by
  obtain ⟨l', h1, h2, _, h4⟩ := C38_add_partial h e
  exact ⟨l', h1, h2, h4⟩

/-- **C38** Entering a file under a name: the new last entry has the names, kind, target and size given,
the header size computed from them, and no place yet. -/
theorem C38_named_partial {n : Int} {fs : List Frag} {l : FList} (h : Built n fs l) (kind : LKind) (rel arc target : Bytes)
    (size : Int) (hdr : Nat) (hh : computeHdrSize rel target size = .ok hdr) :
    ∃ l' f, addName l kind rel arc target size = .ok l' ∧ l'.frags = fs ++ [f] ∧
      f.rel = rel ∧ f.arc = arc ∧ f.kind = kind ∧ f.target = target ∧ f.size = size ∧ f.hdr = (hdr : Int) ∧
      f.locA = -1 ∧ f.locO = -1 ∧ f.bucket = -1 := by
  obtain ⟨l', h1, h2, _⟩ := C38_add_partial h ⟨rel, arc, kind, target, size, hdr, -1, -1, -1, none, -1, -1, -1, -1, -1⟩
  refine ⟨l', _, ?_, h2, rfl, rfl, rfl, rfl, rfl, rfl, rfl, rfl, rfl⟩
  unfold addName
  rw [hh]
  exact h1

example : computeHdrSize [97] [98] 5 = .ok 512 := by decide +kernel

/-- A request for no entries is refused. -/
theorem C38_refused {n : Int} : createList n = .ok none ↔ n < 1 := by
  unfold createList
  constructor
  · intro h; split at h
    · assumption
    · split at h <;> cases h
  · intro h; rw [if_pos h]

/-- A small entry for examples. -/
def exFrag (c : UInt8) (size : Int) : Frag :=
  ⟨[c], [c], .reg, [], size, 512, -1, -1, -1, none, -1, -1, -1, -1, -1⟩

example : ∃ l, Built 2 [exFrag 97 1, exFrag 98 2, exFrag 99 3] l ∧ l.total = 4 := by
  refine ⟨_, .add (.add (.add (.create rfl) rfl) rfl) rfl, rfl⟩

/-- **C43** Exactly when freeing a list reads nothing uninitialised: if it never had to grow, or if it is
completely full.  In between, uninitialised pointers are freed.  (See `C43_released_iff` for the memory
released, `C79_returned_iff` for entries that share a pad's name.) -/
theorem C43_free_iff {n : Int} {fs : List Frag} {l : FList} (h : Built n fs l) :
    freeList l = .ok () ↔ ((fs.length : Int) ≤ n ∨ ∃ j, fs.length = n.toNat * 2 ^ j) := by
  obtain ⟨h1, h2⟩ := h.inv
  have nofull : ∀ gs : List Frag, (gs.map Slot.full).any isGarbage = false := by
    intro gs; induction gs <;> simp_all [isGarbage]
  unfold freeList
  rcases h2.shape with ⟨t1, t2, t3⟩ | ⟨j, t1, t2, t3, t4⟩
  · have hl : l.slots.length = n.toNat := by rw [t3]; simp; omega
    have : ¬ ((l.slots.take l.total).any isGarbage = true ∨
        l.slots.length < l.total) := by
      rw [hl, t1, List.take_of_length_le (by omega), t3, List.any_append, nofull]
      simp [isGarbage]
    rw [if_neg this]
    simp; left; omega
  · have hl : l.slots.length = l.total + 1 := by rw [t4]; simp; omega
    by_cases hf : fs.length = l.total
    · have : ¬ ((l.slots.take l.total).any isGarbage = true ∨
          l.slots.length < l.total) := by
        rw [hl, t4, List.take_append_of_le_length (by simp; omega), List.take_of_length_le (by simp; omega), nofull]
        simp
      rw [if_neg this]
      simp; right; exact ⟨j + 1, by omega⟩
    · have : ((l.slots.take l.total).any isGarbage = true ∨
          l.slots.length < l.total) := by
        left
        rw [List.any_eq_true]
        refine ⟨.garbage, ?_, rfl⟩
        rw [List.mem_take_iff_getElem]
        refine ⟨fs.length, by omega, ?_⟩
        simp only [t4]
        rw [List.getElem_append_right (by simp)]
        simp
      rw [if_pos this]
      simp only [reduceCtorEq, false_iff, not_or, not_exists]
      have hpos : 1 ≤ n.toNat := h1
      have hge : n.toNat ≤ n.toNat * 2 ^ j := Nat.le_mul_of_pos_right _ (Nat.pos_of_ne_zero (by simp))
      refine ⟨by omega, fun i hi => ?_⟩
      rcases Nat.lt_or_ge j i with hji | hji
      · have : n.toNat * 2 ^ (j + 1) ≤ n.toNat * 2 ^ i :=
          Nat.mul_le_mul_left _ (Nat.pow_le_pow_right (by omega) hji)
        omega
      · have : n.toNat * 2 ^ i ≤ n.toNat * 2 ^ j :=
          Nat.mul_le_mul_left _ (Nat.pow_le_pow_right (by omega) hji)
        omega

example : ∃ l, Built 2 [exFrag 97 1, exFrag 98 2, exFrag 99 3] l ∧ freeList l = .error .ub := by
  refine ⟨_, .add (.add (.add (.create rfl) rfl) rfl) rfl, rfl⟩

/-- **C43 (partial)** A list that never had to grow is freed safely.  Missing: every other list. -/
theorem C43_not_grown_partial {n : Int} {fs : List Frag} {l : FList} (h : Built n fs l) (hle : (fs.length : Int) ≤ n) :
    freeList l = .ok () := (C43_free_iff h).2 (Or.inl hle)

/-- **C43, violated** For every capacity there are lists (those with one entry more) whose freeing reads
uninitialised pointers. -/
theorem C43_grown_is_undefined {n : Int} (hn : 2 ≤ n) {fs : List Frag} {l : FList} (h : Built n fs l)
    (hlen : (fs.length : Int) = n + 1) : freeList l = .error .ub := by
  have hne : freeList l ≠ .ok () := by
    intro hf
    rcases (C43_free_iff h).1 hf with h1 | ⟨j, hj⟩
    · omega
    · rcases j with _ | j
      · omega
      · have h1 : 1 ≤ 2 ^ j := Nat.one_le_two_pow
        have : n.toNat * 2 ≤ n.toNat * 2 ^ (j + 1) := Nat.mul_le_mul_left _ (by rw [Nat.pow_succ]; omega)
        omega
  unfold freeList at hne ⊢
  split
  · rfl
  · rename_i hc
    rw [if_neg hc] at hne
    exact absurd rfl hne

example : ∃ l, Built 3 [exFrag 97 1, exFrag 98 2, exFrag 99 3] l ∧ freeList l = .ok () := by
  refine ⟨_, .add (.add (.add (.create rfl) rfl) rfl) rfl, rfl⟩

/-! ### C33: the sort order -/

theorem toNat_eq_zero {a : UInt8} : a.toNat = 0 ↔ a = 0 := by
  constructor
  · intro h; exact UInt8.toNat_inj.1 (by rw [h]; rfl)
  · intro h; rw [h]; rfl

theorem strcmp_self (a : Bytes) : strcmp a a = 0 := by
  induction a with
  | nil => rfl
  | cons a s ih => simp [strcmp, ih]

theorem strcmp_neg (a b : Bytes) : strcmp a b = - strcmp b a := by
  induction a generalizing b with
  | nil => cases b <;> simp [strcmp]
  | cons a s ih =>
    cases b with
    | nil => simp [strcmp]
    | cons b t =>
      simp only [strcmp]
      by_cases h : a = b
      · subst h
        rw [if_pos rfl, if_pos rfl]
        split
        · rfl
        · exact ih t
      · rw [if_neg h, if_neg (Ne.symm h)]; omega

theorem strcmp_trans {a b c : Bytes} (h1 : strcmp a b ≤ 0) (h2 : strcmp b c ≤ 0) : strcmp a c ≤ 0 := by
  induction a generalizing b c with
  | nil => cases c <;> simp [strcmp]
  | cons a s ih =>
    cases b with
    | nil =>
      have ha : a.toNat = 0 := by simp only [strcmp] at h1; omega
      have ha' := toNat_eq_zero.1 ha
      cases c with
      | nil => simp [strcmp, ha]
      | cons c u =>
        simp only [strcmp]
        split
        · simp [ha']
        · omega
    | cons b t =>
      cases c with
      | nil =>
        have hb : b.toNat = 0 := by simp only [strcmp] at h2; omega
        simp only [strcmp] at h1 ⊢
        split at h1
        · rename_i h; rw [h]; omega
        · omega
      | cons c u =>
        simp only [strcmp] at h1 h2 ⊢
        by_cases hab : a = b
        · by_cases hbc : b = c
          · subst hab; subst hbc
            rw [if_pos rfl] at *
            split
            · rfl
            · rename_i h0
              rw [if_neg h0] at h1 h2
              exact ih h1 h2
          · rw [if_neg hbc] at h2
            rw [hab, if_neg hbc]; exact h2
        · rw [if_neg hab] at h1
          by_cases hbc : b = c
          · rw [← hbc, if_neg hab]; exact h1
          · rw [if_neg hbc] at h2
            have g1 : a.toNat ≠ b.toNat := fun g => hab (UInt8.toNat_inj.1 g)
            have g2 : a ≠ c := by intro g; subst g; omega
            rw [if_neg g2]; omega

/-- `strcmp` on C strings (no NUL inside) is the dictionary order of unsigned bytes. -/
theorem strcmp_le {a b : Bytes} (ha : (0:UInt8) ∉ a) (hb : (0:UInt8) ∉ b) :
    strcmp a b ≤ 0 ↔ a.map UInt8.toNat ≤ b.map UInt8.toNat := by
  induction a generalizing b with
  | nil => cases b <;> simp [strcmp]
  | cons a s ih =>
    have ha0 : a ≠ 0 := fun h => ha (by simp [h])
    cases b with
    | nil =>
      simp only [strcmp, List.map_cons, List.map_nil]
      have : a.toNat ≠ 0 := fun h => ha0 (toNat_eq_zero.1 h)
      constructor
      · intro h; omega
      · intro h
        exact absurd h (by simp)
    | cons b t =>
      simp only [strcmp, List.map_cons]
      have hs := ih (b := t) (fun h => ha (by simp [h])) (fun h => hb (by simp [h]))
      rw [List.cons_le_cons_iff]
      by_cases h : a = b
      · rw [if_pos h, if_neg ha0, hs]; subst h; simp
      · rw [if_neg h]
        have : a.toNat ≠ b.toNat := fun g => h (UInt8.toNat_inj.1 g)
        omega

/-- **C33** The comparison is a total order in the sense `qsort` needs (for any strings). -/
theorem C33_total : TotalCmp cmpFrag where
  refl a := by simp [cmpFrag, strcmp_self]
  anti a b := by
    unfold cmpFrag
    have := strcmp_neg a.arc b.arc
    by_cases h1 : a.size > b.size
    · rw [if_pos h1, if_neg (by omega), if_pos h1]; omega
    · rw [if_neg h1]
      by_cases h2 : b.size > a.size
      · rw [if_pos h2, if_pos h2]; omega
      · rw [if_neg h2, if_neg h2, if_neg h1]; omega
  trans a b c h1 h2 := by
    unfold cmpFrag at *
    split at h1
    · omega
    split at h2
    · omega
    rename_i h3 h4
    rw [if_neg (by omega)]
    split
    · omega
    · rename_i h5
      rw [if_neg (by omega)] at h1 h2
      exact strcmp_trans h1 h2

/-- A name without NUL bytes, as every C string. -/
def NulFree (f : Frag) : Prop := (0 : UInt8) ∉ f.arc

/-- **C33** Whatever sorting algorithm `qsort` is: the sorted list has the same entries, in order of
size and, for equal sizes, in dictionary order of the names. -/
theorem C33_sorted (Q : QSort Frag) (l : List Frag) (h : ∀ f ∈ l, NulFree f) :
    (qsortEntries Q l).Perm l ∧
    (qsortEntries Q l).Pairwise (fun a b => a.size < b.size ∨
      (a.size = b.size ∧ a.arc.map UInt8.toNat ≤ b.arc.map UInt8.toNat)) := by
  have hp := Q.perm cmpFrag l C33_total
  refine ⟨hp, ?_⟩
  have hs := Q.sorted cmpFrag l C33_total
  refine List.Pairwise.imp_of_mem ?_ hs
  intro a b ha hb hab
  have ha' := h a (hp.mem_iff.1 ha)
  have hb' := h b (hp.mem_iff.1 hb)
  unfold cmpFrag at hab
  split at hab
  · omega
  split at hab
  · left; omega
  · right
    exact ⟨by omega, (strcmp_le ha' hb').1 hab⟩

/-- The place of a kind in the sorted list. -/
def kindRank : LKind → Nat
  | .dir => 0
  | .lnk => 1
  | _ => 2

/-- The sizes the scan records: -3 for directories, -2 for links, the length for files. -/
def ScanSizes (f : Frag) : Prop :=
  match f.kind with
  | .dir => f.size = -3
  | .lnk => f.size = -2
  | _ => 0 ≤ f.size

/-- **C33** With the sizes of a scan, directories come first, then links, then files. -/
theorem C33_groups (Q : QSort Frag) (l : List Frag) (h : ∀ f ∈ l, ScanSizes f) :
    (qsortEntries Q l).Pairwise (fun a b => kindRank a.kind ≤ kindRank b.kind) := by
  have hp := Q.perm cmpFrag l C33_total
  refine List.Pairwise.imp_of_mem ?_ (Q.sorted cmpFrag l C33_total)
  intro a b ha hb hab
  have ha' := h a (hp.mem_iff.1 ha)
  have hb' := h b (hp.mem_iff.1 hb)
  have hle : a.size ≤ b.size := by
    unfold cmpFrag at hab
    split at hab
    · omega
    · omega
  unfold ScanSizes at ha' hb'
  unfold kindRank
  cases ka : a.kind <;> cases kb : b.kind <;> simp only [ka, kb] at ha' hb' ⊢ <;> omega

theorem strcmp_eq {a b : Bytes} (ha : (0:UInt8) ∉ a) (hb : (0:UInt8) ∉ b) (h : strcmp a b = 0) : a = b := by
  induction a generalizing b with
  | nil =>
    cases b with
    | nil => rfl
    | cons b t =>
      exfalso; apply hb
      have : b.toNat = 0 := by simp only [strcmp] at h; omega
      simp [toNat_eq_zero.1 this]
  | cons a s ih =>
    have ha0 : a ≠ 0 := fun h => ha (by simp [h])
    cases b with
    | nil =>
      exfalso; apply ha0
      exact toNat_eq_zero.1 (by simp only [strcmp] at h; omega)
    | cons b t =>
      simp only [strcmp, ha0, if_false] at h
      split at h
      · rename_i hab
        rw [hab, ih (fun h => ha (by simp [h])) (fun h => hb (by simp [h])) h]
      · rename_i hab
        exact absurd (UInt8.toNat_inj.1 (by omega)) hab

/-- **C33** If the names are distinct, the sorted list does not depend on the algorithm nor on the
order the entries came in. -/
theorem C33_unique (Q Q' : QSort Frag) (l l' : List Frag) (hl : l.Perm l') (h : ∀ f ∈ l, NulFree f)
    (hn : (l.map Frag.arc).Nodup) : qsortEntries Q l = qsortEntries Q' l' := by
  have hp := Q.perm cmpFrag l C33_total
  have hp' := Q'.perm cmpFrag l' C33_total
  refine List.Perm.eq_of_pairwise ?_ (Q.sorted cmpFrag l C33_total) (Q'.sorted cmpFrag l' C33_total)
    (hp.trans (hl.trans hp'.symm))
  intro a b ha hb hab hba
  have ha' := hp.mem_iff.1 ha
  have hb' := hl.mem_iff.2 (hp'.mem_iff.1 hb)
  have h0 : cmpFrag a b = 0 := by
    have := (C33_total.anti a b).1
    by_cases g : cmpFrag a b < 0
    · have := this g; omega
    · omega
  have harc : a.arc = b.arc := by
    unfold cmpFrag at h0
    split at h0
    · omega
    split at h0
    · omega
    · exact strcmp_eq (h a ha') (h b hb') h0
  exact List.inj_on_of_nodup_map hn ha' hb' harc

/-- Insertion sort: a conforming `qsort` exists, so the theorems above speak of something. -/
def insCmp (cmp : Frag → Frag → Int) (a : Frag) : List Frag → List Frag
  | [] => [a]
  | b :: l => if cmp a b ≤ 0 then a :: b :: l else b :: insCmp cmp a l

theorem insCmp_perm (cmp : Frag → Frag → Int) (a : Frag) (l : List Frag) : (insCmp cmp a l).Perm (a :: l) := by
  induction l with
  | nil => exact List.Perm.refl _
  | cons b l ih =>
    unfold insCmp
    split
    · exact List.Perm.refl _
    · exact (List.Perm.cons b ih).trans (List.Perm.swap a b l)

theorem insCmp_sorted {cmp : Frag → Frag → Int} (hc : TotalCmp cmp) (a : Frag) (l : List Frag)
    (h : l.Pairwise (fun a b => cmp a b ≤ 0)) : (insCmp cmp a l).Pairwise (fun a b => cmp a b ≤ 0) := by
  induction l with
  | nil => simp [insCmp]
  | cons b l ih =>
    rw [List.pairwise_cons] at h
    unfold insCmp
    split
    · rename_i hab
      rw [List.pairwise_cons]
      refine ⟨?_, List.pairwise_cons.2 h⟩
      intro c hc'
      rcases List.mem_cons.1 hc' with rfl | hc'
      · exact hab
      · exact hc.trans a b c hab (h.1 c hc')
    · rename_i hab
      rw [List.pairwise_cons]
      refine ⟨?_, ih h.2⟩
      intro c hc'
      rcases List.mem_cons.1 ((insCmp_perm cmp a l).mem_iff.1 hc') with rfl | hc'
      · have := (hc.anti b c).2 (by omega); omega
      · exact h.1 c hc'

/-- A conforming `qsort`. -/
def insQSort : QSort Frag where
  run cmp l := l.foldr (insCmp cmp) []
  perm cmp l _ := by
    induction l with
    | nil => exact List.Perm.refl _
    | cons a l ih => exact (insCmp_perm cmp a _).trans (ih.cons a)
  sorted cmp l hc := by
    induction l with
    | nil => simp
    | cons a l ih => exact insCmp_sorted hc a _ ih

example : qsortEntries insQSort [exFrag 98 7, exFrag 97 7, exFrag 99 (-2), exFrag 100 (-3)] =
    [exFrag 100 (-3), exFrag 99 (-2), exFrag 97 7, exFrag 98 7] := by decide

example : (([exFrag 98 7, exFrag 97 7, exFrag 99 9] : List Frag).map Frag.arc).Nodup ∧
    ∀ f ∈ [exFrag 98 7, exFrag 97 7, exFrag 99 9], NulFree f ∧ ScanSizes f := by
  refine ⟨by decide, ?_⟩
  intro f hf
  simp at hf
  rcases hf with rfl | rfl | rfl <;> exact ⟨by unfold NulFree; decide, by unfold ScanSizes exFrag; decide⟩

/-! ### C36: which rank does which bucket -/

theorem mem_rankBuckets {n total : Nat} (hn : 0 < n) (start k : Nat) :
    k ∈ rankBuckets n total start ↔ start ≤ k ∧ k < total ∧ (k - start) % n = 0 := by
  induction start using rankBuckets.induct (n := n) (total := total) with
  | case1 s h ih =>
    rw [rankBuckets, dif_pos h, List.mem_cons, ih]
    constructor
    · rintro (rfl | ⟨h1, h2, h3⟩)
      · exact ⟨by omega, h.1, by simp⟩
      · refine ⟨by omega, h2, ?_⟩
        rw [show k - s = (k - (s + n)) + n by omega, Nat.add_mod_right, h3]
    · rintro ⟨h1, h2, h3⟩
      by_cases hk : k = s
      · left; exact hk
      · right
        have : n ≤ k - s := by
          by_contra hc
          rw [Nat.mod_eq_of_lt (by omega)] at h3
          omega
        refine ⟨by omega, h2, ?_⟩
        rw [show k - s = (k - (s + n)) + n by omega, Nat.add_mod_right] at h3
        exact h3
  | case2 s h =>
    rw [rankBuckets, dif_neg h]
    simp
    intro h1 h2
    omega

theorem rankBuckets_sorted {n total : Nat} (hn : 0 < n) (start : Nat) :
    (rankBuckets n total start).Pairwise (· < ·) := by
  induction start using rankBuckets.induct (n := n) (total := total) with
  | case1 s h ih =>
    rw [rankBuckets, dif_pos h, List.pairwise_cons]
    exact ⟨fun k hk => by have := (mem_rankBuckets hn _ _).1 hk; omega, ih⟩
  | case2 s h => rw [rankBuckets, dif_neg h]; exact List.Pairwise.nil

/-- **C36** With `n` ranks, each bucket is done by exactly one rank, once; each rank does its buckets
in increasing order and none that does not exist. -/
theorem C36_each_bucket_once (n total : Nat) (hn : 0 < n) :
    (∀ k < total, ∃ r < n, k ∈ rankBuckets n total r ∧
      ∀ r' < n, k ∈ rankBuckets n total r' → r' = r) ∧
    (∀ r < n, (rankBuckets n total r).Pairwise (· < ·) ∧ ∀ k ∈ rankBuckets n total r, k < total) := by
  refine ⟨?_, ?_⟩
  · intro k hk
    have hkm := Nat.mod_lt k hn
    have hle := Nat.mod_le k n
    refine ⟨k % n, hkm, (mem_rankBuckets hn _ _).2 ⟨hle, hk, ?_⟩, ?_⟩
    · have := Nat.div_add_mod k n
      rw [show k - k % n = n * (k / n) by omega]
      simp
    · intro r hr h
      obtain ⟨h1, _, h3⟩ := (mem_rankBuckets hn _ _).1 h
      have : k = r + n * ((k - r) / n) := by
        have := Nat.div_add_mod (k - r) n; omega
      rw [this, Nat.add_mul_mod_self_left, Nat.mod_eq_of_lt hr]
  · intro r _
    exact ⟨rankBuckets_sorted hn r, fun k hk => ((mem_rankBuckets hn _ _).1 hk).2.1⟩

example : rankBuckets 3 8 1 = [1, 4, 7] ∧ rankBuckets 3 8 2 = [2, 5] := by
  simp [rankBuckets]

/-! ### C37: the rank call list -/

theorem mem_rankCallLoop (fs : List Frag) (i : Nat) (last : Int) (j : Nat) :
    j ∈ rankCallLoop i last fs ↔
      (j = i ∧ ∃ h : 0 < fs.length, fs[0].bucket ≠ last) ∨
      (∃ k, ∃ h : k + 1 < fs.length, j = i + (k + 1) ∧ fs[k + 1].bucket ≠ fs[k].bucket) := by
  induction fs generalizing i last with
  | nil => simp [rankCallLoop]
  | cons f fs ih =>
    have tail : ∀ l, l = f.bucket → (j ∈ rankCallLoop (i + 1) l fs ↔
        ∃ k, ∃ h : k + 1 < (f :: fs).length, j = i + (k + 1) ∧ (f :: fs)[k + 1].bucket ≠ (f :: fs)[k].bucket) := by
      intro l hl
      rw [ih]
      constructor
      · rintro (⟨h1, h2, h3⟩ | ⟨k, h1, h2, h3⟩)
        · exact ⟨0, by simpa using h2, by omega, by simpa [hl] using h3⟩
        · exact ⟨k + 1, by simpa using h1, by omega, by simpa using h3⟩
      · rintro ⟨k, h1, h2, h3⟩
        cases k with
        | zero => left; exact ⟨by omega, by simpa using h1, by simpa [hl] using h3⟩
        | succ k => right; exact ⟨k, by simpa using h1, by omega, by simpa using h3⟩
    unfold rankCallLoop
    split
    · rename_i hb
      rw [List.mem_cons, tail _ rfl]
      simp [hb]
    · rename_i hb
      rw [tail _ (by simpa using (not_not.1 hb).symm)]
      simp [not_not.1 hb]

theorem rankCallLoop_sorted (fs : List Frag) (i : Nat) (last : Int) :
    (rankCallLoop i last fs).Pairwise (· < ·) := by
  induction fs generalizing i last with
  | nil => exact List.Pairwise.nil
  | cons f fs ih =>
    unfold rankCallLoop
    split
    · rw [List.pairwise_cons]
      refine ⟨?_, ih _ _⟩
      intro k hk
      rcases (mem_rankCallLoop _ _ _ _).1 hk with ⟨h, _⟩ | ⟨_, _, h, _⟩ <;> omega
    · exact ih _ _

/-- The fragments are in order of their buckets, as the layout makes them. -/
def InOrder (fs : List Frag) : Prop := ∀ i j (hi : i < fs.length) (hj : j < fs.length), i ≤ j → fs[i].bucket ≤ fs[j].bucket

/-- Consecutive fragments are in the same bucket or in consecutive buckets. -/
def NoGap (fs : List Frag) : Prop := ∀ i (h : i + 1 < fs.length), fs[i+1].bucket ≤ fs[i].bucket + 1

theorem same_bucket_between {fs : List Frag} {a b : Nat} (hb : b < fs.length) (hab : a ≤ b)
    (h : ∀ k, a ≤ k → (h : k + 1 < fs.length) → k < b → fs[k+1].bucket = fs[k].bucket) :
    fs[b].bucket = fs[a].bucket := by
  induction b with
  | zero => have : a = 0 := by omega
            subst this; rfl
  | succ b ih =>
    by_cases he : a = b + 1
    · subst he; rfl
    · rw [h b (by omega) hb (by omega)]
      exact ih (by omega) (by omega) (fun k h1 h2 h3 => h k h1 h2 (by omega))

/-- **C37** The rank call list `cs` of a fragment list: it begins with the first fragment, is
increasing, and its `k`-th entry and the next delimit all and only the fragments of one bucket. -/
theorem C37_partition (fs : List Frag) (hord : InOrder fs) (cs : List Nat)
    (h : rankCallList fs = .ok (some cs)) :
    cs.head? = some 0 ∧ cs.Pairwise (· < ·) ∧
    ∀ k (hk : k < cs.length), ∃ hc : cs[k] < fs.length,
      ∀ i (hi : i < fs.length),
        (fs[i].bucket = fs[cs[k]].bucket ↔ cs[k] ≤ i ∧ ∀ h : k + 1 < cs.length, i < cs[k+1]) := by
  cases fs with
  | nil => cases h
  | cons f fs =>
    simp only [rankCallList] at h
    split at h
    · cases h
    rename_i hb
    have hb : f.bucket = 0 := not_not.1 hb
    simp at h
    have hhead : rankCallLoop 0 (-1) (f :: fs) = 0 :: rankCallLoop 1 f.bucket fs := by
      rw [rankCallLoop, if_pos (by omega)]
    have hs := rankCallLoop_sorted (f :: fs) 0 (-1)
    have hm := mem_rankCallLoop (f :: fs) 0 (-1)
    rw [h] at hs hm hhead
    generalize f :: fs = l at *
    refine ⟨by rw [hhead]; rfl, hs, ?_⟩
    intro k hk
    have hmk := (hm cs[k]).1 (List.getElem_mem hk)
    have hc : cs[k] < l.length := by
      rcases hmk with ⟨e, e', _⟩ | ⟨j, e, e', _⟩ <;> omega
    refine ⟨hc, ?_⟩
    have notmem : ∀ j, cs[k] < j → (∀ h : k + 1 < cs.length, j < cs[k+1]) → j ∉ cs := by
      intro j h1 h2 hj
      obtain ⟨n, hn, rfl⟩ := List.getElem_of_mem hj
      have hs' := List.pairwise_iff_getElem.1 hs
      rcases Nat.lt_trichotomy n k with g | g | g
      · have := hs' n k hn hk g; omega
      · subst g; omega
      · have g2 := h2 (by omega)
        rcases Nat.lt_or_ge (k + 1) n with g3 | g3
        · have := hs' (k + 1) n (by omega) hn g3; omega
        · have : n = k + 1 := by omega
          subst this; omega
    intro i hi
    constructor
    · intro he
      have hle : cs[k] ≤ i := by
        by_contra hlt
        rcases hmk with ⟨e, _⟩ | ⟨j, e, e', e2⟩
        · omega
        · have o1 := hord i j hi (by omega) (by omega)
          have o2 := hord j (j+1) (by omega) e (by omega)
          have : cs[k] = j + 1 := by omega
          simp only [this] at he
          omega
      refine ⟨hle, ?_⟩
      intro hk1
      by_contra hlt
      rcases (hm cs[k+1]).1 (List.getElem_mem hk1) with ⟨e, _⟩ | ⟨j, e, e', e2⟩
      · have := List.pairwise_iff_getElem.1 hs k (k+1) hk hk1 (by omega); omega
      · have hkk := List.pairwise_iff_getElem.1 hs k (k+1) hk hk1 (by omega)
        have o1 := hord cs[k] j hc (by omega) (by omega)
        have o2 := hord j (j+1) (by omega) e (by omega)
        have o3 := hord (j+1) i e hi (by omega)
        omega
    · rintro ⟨h1, h2⟩
      refine same_bucket_between hi h1 ?_
      intro j h3 h4 h5
      by_contra hne
      refine notmem (j+1) (by omega) (fun h => by have := h2 h; omega) ?_
      exact (hm (j+1)).2 (Or.inr ⟨j, h4, by omega, hne⟩)

/-- **C37** If moreover no bucket number is skipped, the `k`-th entry is the first fragment of bucket
`k`: the check the writers make before they start succeeds. -/
theorem C37_numbering (fs : List Frag) (hord : InOrder fs) (hgap : NoGap fs) (cs : List Nat)
    (h : rankCallList fs = .ok (some cs)) :
    ∀ k (hk : k < cs.length), ∃ hc : cs[k] < fs.length, fs[cs[k]].bucket = k := by
  obtain ⟨h0, hs, hp⟩ := C37_partition fs hord cs h
  have hs' := List.pairwise_iff_getElem.1 hs
  intro k
  induction k with
  | zero =>
    intro hk
    obtain ⟨hc, _⟩ := hp 0 hk
    refine ⟨hc, ?_⟩
    have : cs[0] = 0 := by
      cases cs with
      | nil => simp at hk
      | cons c cs => simpa using h0
    cases fs with
    | nil => cases h
    | cons f fs =>
      simp only [rankCallList] at h
      split at h
      · cases h
      rename_i hb
      simp [this]
      exact not_not.1 hb
  | succ k ih =>
    intro hk
    obtain ⟨hc, he⟩ := ih (by omega)
    obtain ⟨hc1, hp1⟩ := hp (k+1) hk
    obtain ⟨_, hp0⟩ := hp k (by omega)
    refine ⟨hc1, ?_⟩
    have hlt := hs' k (k+1) (by omega) hk (by omega)
    have hprev : fs[cs[k+1] - 1].bucket = k := by
      rw [(hp0 (cs[k+1] - 1) (by omega)).2 ⟨by omega, fun _ => by omega⟩, he]
    have hne : fs[cs[k+1]].bucket ≠ k := by
      intro hx
      have := (hp0 cs[k+1] hc1).1 (by rw [hx, he])
      have := this.2 hk
      omega
    have hg := hgap (cs[k+1] - 1) (by omega)
    have ho := hord (cs[k+1] - 1) cs[k+1] (by omega) hc1 (by omega)
    have e : cs[k+1] - 1 + 1 = cs[k+1] := by omega
    simp only [e] at hg
    push_cast
    omega

/-- A small fragment in a bucket, for examples. -/
def exBucket (b : Int) : Frag := { exFrag 97 1 with bucket := b }

example : rankCallList [exBucket 0, exBucket 0, exBucket 1, exBucket 2, exBucket 2] = .ok (some [0, 2, 3]) := by
  decide

example : InOrder [exBucket 0, exBucket 0, exBucket 1] ∧ NoGap [exBucket 0, exBucket 0, exBucket 1] := by
  unfold InOrder NoGap
  refine ⟨?_, ?_⟩
  · intro i j hi hj hij
    simp at hi hj
    have : i = 0 ∨ i = 1 ∨ i = 2 := by omega
    have : j = 0 ∨ j = 1 ∨ j = 2 := by omega
    rcases this with rfl | rfl | rfl <;> rcases ‹i = 0 ∨ i = 1 ∨ i = 2› with rfl | rfl | rfl <;>
      first | omega | simp [exBucket]
  · intro i hi
    simp at hi
    have : i = 0 ∨ i = 1 := by omega
    rcases this with rfl | rfl <;> simp [exBucket]

/-- **C37, violated** The rank call list of no fragments reads and writes outside its arrays. -/
theorem C37_empty : rankCallList [] = .error .ub := rfl

end Parfu.Props
