/-
Property theorems C39 and C42: catalog lines and the layout helper of parfu 0.6.
-/
import Verif.Catalog
import Verif.MarchLemmas
import Verif.PlanLemmas
import Verif.PropsText
set_option autoImplicit false

namespace Parfu.Props
open Parfu PlanSpec

/-- Equal texts `a TAB rest` with TAB-free `a` have equal parts. -/
theorem tab_split {a a' r r' : Bytes} (h : a ++ [9] ++ r = a' ++ [9] ++ r') (ha : (9 : UInt8) ∉ a)
    (ha' : (9 : UInt8) ∉ a') : a = a' ∧ r = r' := by
  have i1 : (a ++ [9] ++ r).idxOf 9 = a.length := by
    rw [List.append_assoc, List.idxOf_append_of_notMem ha]; simp
  have i2 : (a' ++ [9] ++ r').idxOf 9 = a'.length := by
    rw [List.append_assoc, List.idxOf_append_of_notMem ha']; simp
  have hl : a.length = a'.length := by rw [← i1, ← i2, h]
  rw [List.append_assoc, List.append_assoc] at h
  obtain ⟨h1, h2⟩ := List.append_inj h hl
  exact ⟨h1, by simpa using h2⟩

theorem digits_inj' {n m : Nat} (h : digits 10 n = digits 10 m) : n = m := by
  have h1 := readNum_digits (b := 10) (by omega) (by omega) n [] (by simp)
  have h2 := readNum_digits (b := 10) (by omega) (by omega) m [] (by simp)
  rw [List.append_nil] at h1 h2
  rw [h, h2] at h1
  simp at h1
  exact h1.symm

theorem catType_inj {k k' : Kind} (h : catType k = catType k') : k = k' := by
  cases k <;> cases k' <;> simp [catType] at h <;> rfl

theorem catType_noTab (k : Kind) : (9 : UInt8) ∉ catType k := by cases k <;> decide

theorem digits_noTab (n : Nat) : (9 : UInt8) ∉ digits 10 n := digits_no 9 (by decide) n

/-- Names without TAB. -/
def TabFree (e : Ent) : Prop := (9 : UInt8) ∉ e.rel ∧ (9 : UInt8) ∉ e.target

theorem full_split {e e' : Ent} {r r' : Bytes} (he : TabFree e) (he' : TabFree e')
    (h : fullLine e ++ r = fullLine e' ++ r') : e = e' ∧ r = r' := by
  unfold fullLine at h
  simp only [List.append_assoc] at h
  have h0 : e.rel ++ [9] ++ (catType e.kind ++ ([9] ++ (e.target ++ ([9] ++ (digits 10 e.size ++ ([9] ++ r)))))) =
      e'.rel ++ [9] ++ (catType e'.kind ++ ([9] ++ (e'.target ++ ([9] ++ (digits 10 e'.size ++ ([9] ++ r')))))) := by
    simpa only [List.append_assoc] using h
  obtain ⟨h1, h0⟩ := tab_split h0 he.1 he'.1
  obtain ⟨h2, h0⟩ := tab_split (by simpa only [List.append_assoc] using h0 :
    catType e.kind ++ [9] ++ (e.target ++ ([9] ++ (digits 10 e.size ++ ([9] ++ r)))) =
    catType e'.kind ++ [9] ++ (e'.target ++ ([9] ++ (digits 10 e'.size ++ ([9] ++ r')))))
    (catType_noTab _) (catType_noTab _)
  obtain ⟨h3, h0⟩ := tab_split (by simpa only [List.append_assoc] using h0 :
    e.target ++ [9] ++ (digits 10 e.size ++ ([9] ++ r)) =
    e'.target ++ [9] ++ (digits 10 e'.size ++ ([9] ++ r'))) he.2 he'.2
  obtain ⟨h4, h0⟩ := tab_split (by simpa only [List.append_assoc] using h0 :
    digits 10 e.size ++ [9] ++ r = digits 10 e'.size ++ [9] ++ r') (digits_noTab _) (digits_noTab _)
  refine ⟨?_, h0⟩
  cases e; cases e'
  simp only [Ent.mk.injEq]
  exact ⟨h1, catType_inj h2, h3, digits_inj' h4⟩

/-- The type letter of a catalog line. -/
def catLetter : Kind → String
  | .reg => "F"
  | .dir => "D"
  | .lnk => "L"
  | .other => ""

/-- **C39** The text of a catalog line: path, type letter, link target and size, each followed by a TAB;
an archive catalog adds the header size, a TAB and a newline, a full catalog ends there, without one. -/
theorem C39_format (e : Ent) (hdr : Nat) :
    fullLine e = ([e.rel, asc (catLetter e.kind), e.target, digits 10 e.size].map (· ++ asc "\t")).flatten ∧
    archiveLine e hdr = ([e.rel, asc (catLetter e.kind), e.target, digits 10 e.size,
      digits 10 hdr].map (· ++ asc "\t")).flatten ++ asc "\n" := by
  have hk : asc (catLetter e.kind) = catType e.kind := by cases e.kind <;> rfl
  have ht : asc "\t" = [9] := rfl
  have hn : asc "\n" = [10] := rfl
  rw [hk, ht, hn]
  unfold fullLine archiveLine
  constructor <;> simp

example : archiveLine ⟨asc "a/b", .lnk, asc "c", 7⟩ 512 = asc "a/b\tL\tc\t7\t512\t\n" := by decide +kernel

/-- **C39 (partial)** Two full catalogs - any number of lines, one after the other - that are the
same text are catalogs of the same entries: path, type, link target and size can be recovered, even
with newlines in names.  Missing: names with TABs (`C39_tabs_confuse`); header size and position are
not in the line at all. -/
theorem C39_full_catalog_partial (es es' : List Ent) (h : ∀ e ∈ es, TabFree e) (h' : ∀ e ∈ es', TabFree e)
    (heq : es.flatMap fullLine = es'.flatMap fullLine) : es = es' := by
  induction es generalizing es' with
  | nil =>
    cases es' with
    | nil => rfl
    | cons e es' =>
      exfalso
      have := congrArg List.length heq
      simp [fullLine] at this
  | cons e es ih =>
    cases es' with
    | nil =>
      exfalso
      have := congrArg List.length heq
      simp [fullLine] at this
    | cons e' es' =>
      rw [List.flatMap_cons, List.flatMap_cons] at heq
      obtain ⟨h1, h2⟩ := full_split (h e (by simp)) (h' e' (by simp)) heq
      rw [h1, ih es' (fun x hx => h x (by simp [hx])) (fun x hx => h' x (by simp [hx])) h2]

/-- **C39 (partial)** The same for archive catalogs, from which the header sizes can be recovered
too.  Missing: names with TABs; the position in the archive, which the code leaves out. -/
theorem C39_archive_catalog_partial (es es' : List (Ent × Nat)) (h : ∀ x ∈ es, TabFree x.1)
    (h' : ∀ x ∈ es', TabFree x.1)
    (heq : es.flatMap (fun x => archiveLine x.1 x.2) = es'.flatMap (fun x => archiveLine x.1 x.2)) :
    es = es' := by
  have hline : ∀ e n, archiveLine e n = fullLine e ++ (digits 10 n ++ [9] ++ [10]) := by
    intro e n; unfold archiveLine fullLine; simp only [List.append_assoc]
  induction es generalizing es' with
  | nil =>
    cases es' with
    | nil => rfl
    | cons e es' =>
      exfalso
      have := congrArg List.length heq
      simp [archiveLine] at this
  | cons x es ih =>
    cases es' with
    | nil =>
      exfalso
      have := congrArg List.length heq
      simp [archiveLine] at this
    | cons x' es' =>
      obtain ⟨e, n⟩ := x
      obtain ⟨e', n'⟩ := x'
      rw [List.flatMap_cons, List.flatMap_cons] at heq
      simp only [hline, List.append_assoc] at heq
      obtain ⟨h1, h2⟩ := full_split (h (e, n) (by simp)) (h' (e', n') (by simp)) heq
      obtain ⟨h3, h4⟩ := tab_split (by simpa only [List.append_assoc] using h2 :
        digits 10 n ++ [9] ++ ([10] ++ _) = digits 10 n' ++ [9] ++ ([10] ++ _)) (digits_noTab _) (digits_noTab _)
      have h5 := ih es' (fun x hx => h x (by simp [hx])) (fun x hx => h' x (by simp [hx]))
        (by simp only [hline, List.append_assoc]; simpa using h4)
      have h1 : e = e' := h1
      rw [h1, digits_inj' h3, h5]

/-- **C39, violated** Two different links whose catalog lines are the same. -/
theorem C39_tabs_confuse : ∃ e e' : Ent, e ≠ e' ∧ e.kind = .lnk ∧ e'.kind = .lnk ∧
    fullLine e = fullLine e' ∧ ∀ n, archiveLine e n = archiveLine e' n := by
  refine ⟨⟨[97], .lnk, [98, 9, 76, 9, 99], 0⟩, ⟨[97, 9, 76, 9, 98], .lnk, [99], 0⟩, by decide, rfl, rfl, rfl, ?_⟩
  intro n; rfl

/-- **C39, violated** The position of an entry in the archive is not in its line: the lines of one
entry placed at two different positions are the same. -/
theorem C39_position_missing : ∃ p q : Placed, p.slice.offArch ≠ q.slice.offArch ∧
    archiveLine p.ref.ent p.ref.hdr = archiveLine q.ref.ent q.ref.hdr ∧
    fullLine p.ref.ent = fullLine q.ref.ent :=
  ⟨⟨⟨0, ⟨[97], .reg, [], 0⟩, 512⟩, ⟨512, 0, 0, 0⟩⟩, ⟨⟨0, ⟨[97], .reg, [], 0⟩, 512⟩, ⟨512, 0, 0, 512⟩⟩,
    by decide, rfl, rfl⟩

example : TabFree ⟨[97, 47, 10], .lnk, [98], 0⟩ ∧ TabFree ⟨[], .dir, [], 0⟩ := by
  unfold TabFree; decide

/-- **C42** The "next available byte" helper agrees with the layout: starting it anywhere in the
padding before an entry gives the end of the entry's data, from which the next entry's place is
found by rounding up, exactly as the offsets are set. -/
theorem C42_next_available (w : Nat) (r : Ref) (rs : List Ref) (hw : w % 512 = 0) (start : Nat)
    (h1 : start ≤ w) (h2 : w < start + 512) :
    nextAvailable start r.ent r.hdr = w + r.hdr + r.ent.size ∧
    ∀ p ∈ (placeFrom w (r :: rs)).1.tail.head?, p.slice.offArch = up512 (nextAvailable start r.ent r.hdr) := by
  have hn : nextAvailable start r.ent r.hdr = w + r.hdr + r.ent.size := by
    unfold nextAvailable blk
    split <;> omega
  refine ⟨hn, ?_⟩
  intro p hp
  cases rs with
  | nil => simp [placeFrom] at hp
  | cons q qs =>
    simp only [placeFrom, List.tail_cons, List.head?_cons, Option.mem_def, Option.some.injEq] at hp
    rw [← hp, hn, ← nextBlock_eq, Nat.add_assoc]

example : nextAvailable 1 ⟨[97], .reg, [], 3⟩ 512 = 1027 ∧
    (placeFrom 512 [⟨3, ⟨[97], .reg, [], 3⟩, 512⟩, ⟨3, ⟨[98], .reg, [], 3⟩, 512⟩]).1.tail.head?.map (fun p => p.slice.offArch) =
      some 1536 := by decide

end Parfu.Props
