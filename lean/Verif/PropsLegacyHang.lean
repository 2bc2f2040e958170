/-
C56: runs of several ranks that fail.  C62: the modes X and T, and calls that make no sense.
-/
import Verif.PropsLegacyProgram
set_option autoImplicit false

namespace Parfu.Props
open Parfu ScanSpec LegacyScanSpec MoveSpec TarSpec LegacyRunSpec RanksSpec

/-- All ranks do the same collective operations `h` and (rank 0) some writes, then rank 0 stops and the
others wait for a broadcast from it. -/
theorem waits_hang {P : Nat → RankProg} {n : Nat} {h : Nat → List LAct} {st : LStop} {k : Nat}
    (hk : ∀ r, (collsOf (h r)).length = k) (hP : ∀ r, P r = .after (h r) (waits r st)) (r : Nat) (h0 : 0 < r) (hr : r < n) :
    NeverEnds P n r ∧ (P 0).stop = st := by
  refine ⟨?_, by rw [hP]; rfl⟩
  intro eager old s hs
  refine hs.stuck (a := 0) (by omega) hr (c := k) ?_ (.inr ⟨?_, rfl⟩)
  · rw [hP]; simp [RankProg.after, waits, hk]
  · rw [hP]
    have : r ≠ 0 := by omega
    simp only [RankProg.after, waits, this, if_false, collsOf_append]
    rw [List.getElem?_append_right (by rw [hk]), hk, Nat.sub_self]
    rfl

/-- What rank 0 may fail at before it has sent the layout to the others: the scan, the catalog, the
layout. -/
inductive Rank0Fails (L : LegEnv) (Q : QSort Frag) (nul arc top : Bytes) (seen : Option FNode) (opened : FNode) : LStop → Prop
  | scan {st : LStop} : rank0List Q top seen opened = .error st → Rank0Fails L Q nul arc top seen opened st
  | catalog {st : LStop} {es : List Frag} : rank0List Q top seen opened = .ok es →
      rank0Catalog nul legBucket arc es = .error st → Rank0Fails L Q nul arc top seen opened st
  | layout {st : LStop} {es : List Frag} {cat : Bytes} {front : List WriteReq} : rank0List Q top seen opened = .ok es →
      rank0Catalog nul legBucket arc es = .ok cat → frontWrites L 512 4194304 cat = .ok front →
      rank0Plan nul legBlock legBucket blockingName es = .error st → Rank0Fails L Q nul arc top seen opened st

/-- C56 (violated): if rank 0 cannot read the directory tree, cannot make the catalog or cannot make
the layout, it returns (333, 243) or dies, and all other ranks wait for it for ever. -/
theorem C56_rank0_fails (L : LegEnv) (Q : QSort Frag) (nul arc top : Bytes) (tree : Bytes → Option FNode × FNode)
    (args : List Bytes) (hc : CreateCall args arc top) (n : Nat) (st : LStop)
    (h : Rank0Fails L Q nul arc top (tree top).1 (tree top).2 st) (r : Nat) (h0 : 0 < r) (hr : r < n) :
    NeverEnds (rankMain L Q nul tree args n true) n r ∧ (rankMain L Q nul tree args n true 0).stop = st := by
  cases h with
  | scan h1 =>
    refine waits_hang (h := fun _ => []) (k := 0) (fun _ => rfl) ?_ r h0 hr
    intro q
    rw [rankMain_create hc]
    unfold rankCreate
    rw [h1]; rfl
  | catalog h1 h2 =>
    refine waits_hang (h := fun _ => [.bcast, .bcast, .sync]) (k := 3) (fun _ => rfl) ?_ r h0 hr
    intro q
    rw [rankMain_create hc]
    unfold rankCreate
    rw [h1]
    simp only []
    unfold rankTransfer
    rw [h2]
  | @layout es cat front h1 h2 h3 h4 =>
    refine waits_hang (h := fun q => [.bcast, .bcast, .sync] ++ ([.bcast, .bcast, .sync] ++
      ((if q = 0 then front.map .write else []) ++ [.bcast]))) (k := 7) ?_ ?_ r h0 hr
    · intro q
      simp only [collsOf_append, List.length_append]
      have : collsOf (if q = 0 then front.map LAct.write else []) = [] := by
        split
        · exact collsOf_writes _
        · rfl
      rw [this]; rfl
    · intro q
      rw [rankMain_create hc]
      unfold rankCreate
      rw [h1]
      simp only []
      unfold rankTransfer
      rw [h2]
      simp only [show legBlock.toNat = 512 from rfl, show legBucket.toNat = 4194304 from rfl, h3, Bool.true_eq_false, if_false]
      rw [h4]
      simp only [after_after]

/-- One directory that cannot be read: rank 0 returns 333 and the others wait for ever. -/
theorem C56_unreadable_directory (L : LegEnv) (Q : QSort Frag) (nul arc top : Bytes) (tree : Bytes → Option FNode × FNode)
    (args : List Bytes) (hc : CreateCall args arc top) (n : Nat) (htop : (tree top).1 = some (tree top).2)
    (p : List Bytes) (m : Meta) (k : Kids) (ha : At (tree top).2 p (.dir m false k)) (hn : NoHidden p)
    (r : Nat) (h0 : 0 < r) (hr : r < n) :
    NeverEnds (rankMain L Q nul tree args n true) n r ∧ (rankMain L Q nul tree args n true 0).stop = .exited 333 := by
  refine C56_rank0_fails L Q nul arc top tree args hc n _ (.scan ?_) r h0 hr
  unfold rank0List
  rw [htop, C32_unreadable_fails top (tree top).2 p m k ha hn]

/-- The same if there is nothing, or no directory, at the name that is given. -/
theorem C56_no_directory (L : LegEnv) (Q : QSort Frag) (nul arc top : Bytes) (tree : Bytes → Option FNode × FNode)
    (args : List Bytes) (hc : CreateCall args arc top) (n : Nat)
    (h : (tree top).1 = none ∨ (∃ m c, (tree top).1 = some (.reg m c)) ∨ (∃ m, (tree top).1 = some (.other m)))
    (r : Nat) (h0 : 0 < r) (hr : r < n) :
    NeverEnds (rankMain L Q nul tree args n true) n r ∧ (rankMain L Q nul tree args n true 0).stop = .exited 333 := by
  refine C56_rank0_fails L Q nul arc top tree args hc n _ (.scan ?_) r h0 hr
  unfold rank0List
  rw [C32_refuses top (tree top).1 (tree top).2 (by rcases h with h | h | h; exact .inl h; exact .inr (.inl h); exact .inr (.inr (.inl h)))]

/-- `parfu_0_5_1 C a d` where `d` does not exist, on four ranks. -/
example (L : LegEnv) (Q : QSort Frag) :
    NeverEnds (rankMain L Q glibcNull (fun _ => (none, .reg ⟨0, 0, 0, 0⟩ [])) [[112], [67], [97], [100]] 4 true) 4 3 :=
  (C56_no_directory L Q glibcNull [97] [100] _ _ ⟨[112], [], rfl⟩ 4 (.inl rfl) 3 (by omega) (by omega)).1

/-- C56 (violated): if some rank fails at one of its buckets (say, a file has vanished since the scan),
that rank stops, and every rank that has written all of its buckets waits for it for ever. -/
theorem C56_bucket_fails (L : LegEnv) (Q : QSort Frag) (nul arc top : Bytes) (tree : Bytes → Option FNode × FNode)
    (args : List Bytes) (hc : CreateCall args arc top) (front : List WriteReq) (cat text : Bytes) (call : List Nat) (fr : List Frag)
    (g : Goes L Q nul arc top (tree top).1 (tree top).2 front cat text call fr) (n : Nat) (a b : Nat) (ha : a < n) (hb : b < n)
    (st : LStop) (hf : (dataRun L cat call fr n a).2 = some st) (hok : (dataRun L cat call fr n b).2 = none) :
    NeverEnds (rankMain L Q nul tree args n true) n b ∧ (rankMain L Q nul tree args n true a).stop = st := by
  refine ⟨?_, by rw [(goes_acts g hc n a).2, hf]; rfl⟩
  intro eager old s hs
  obtain ⟨h1, k1, e1⟩ := goes_colls g hc n a
  obtain ⟨h2, k2, e2⟩ := goes_colls g hc n b
  refine hs.stuck ha hb (c := 12) ?_ (.inl ?_)
  · rw [e1, hf]; simp [k1]
  · rw [e2, if_pos hok, List.getElem?_append_right (by omega), k2]; rfl

/-! Non-vacuity of `C56_bucket_fails`: the directory `legDemo` as the scan saw it, with all its files
gone when the buckets are made. -/

/-- No file can be opened. -/
def gone : LegEnv := ⟨demoEnv2, fun _ => none, false, fun _ => 1700000000, 1700000000, 1700000000⟩
def goneList : List Frag := match rank0List insQSort [100] (some legDemo) legDemo with | .ok es => es | .error _ => []
def goneCat : Bytes := match rank0Catalog glibcNull legBucket [97] goneList with | .ok c => c | .error _ => []
def gonePlan : Bytes × List Nat := match rank0Plan glibcNull legBlock legBucket blockingName goneList with | .ok c => c | .error _ => ([], [])
def goneRead : Int × List Frag := match readFullCatalog gonePlan.1 with | .ok (some c) => c | _ => (0, [])
def goneFront : List WriteReq := match frontWrites gone 512 4194304 goneCat with | .ok c => c | .error _ => []

theorem gone_goes : Goes gone insQSort glibcNull [97] [100] (some legDemo) legDemo goneFront goneCat gonePlan.1 gonePlan.2 goneRead.2 :=
  ⟨⟨goneList, by decide +kernel, by decide +kernel, by decide +kernel⟩, by decide +kernel, ⟨goneRead.1, by decide +kernel⟩, by decide +kernel⟩

theorem gone_hangs :
    NeverEnds (rankMain gone insQSort glibcNull (fun _ => (some legDemo, legDemo)) [[112], [67], [97], [100]] 2 true) 2 1 ∧
    (rankMain gone insQSort glibcNull (fun _ => (some legDemo, legDemo)) [[112], [67], [97], [100]] 2 true 0).stop = .crashed (.exit 1) :=
  C56_bucket_fails gone insQSort glibcNull [97] [100] _ _ ⟨[112], [], rfl⟩ goneFront goneCat gonePlan.1 gonePlan.2 goneRead.2
    gone_goes 2 0 1 (by omega) (by omega) _ (by decide +kernel) (by decide +kernel)

/-- C56: if the archive file cannot be opened, all ranks end, with status 243 (and without
`MPI_Finalize`), and nothing is written. -/
theorem C56_open_fails (L : LegEnv) (Q : QSort Frag) (nul arc top : Bytes) (tree : Bytes → Option FNode × FNode)
    (args : List Bytes) (hc : CreateCall args arc top) (n : Nat) (es : List Frag) (cat : Bytes)
    (h1 : rank0List Q top (tree top).1 (tree top).2 = .ok es) (h2 : rank0Catalog nul legBucket arc es = .ok cat) :
    AllEnd (rankMain L Q nul tree args n false) n ∧
    (∀ r, (rankMain L Q nul tree args n false r).stop = .exited 243) ∧
    ∀ eager old s, LReach (rankMain L Q nul tree args n false) n eager old s → s.file = old := by
  have hP : ∀ r, rankMain L Q nul tree args n false r = ⟨[.bcast, .bcast, .sync, .bcast, .bcast, .sync], .exited 243⟩ := by
    intro r
    rw [rankMain_create hc]
    unfold rankCreate
    rw [h1]
    simp only []
    unfold rankTransfer
    rw [h2]
    rfl
  refine ⟨allEnd_of (K := 6) (fun r _ => by rw [hP]; rfl), fun r => by rw [hP], ?_⟩
  intro eager old s hs
  have hi := hs.inv
  have : s.log = [] := by
    cases hl : s.log with
    | nil => rfl
    | cons e l =>
      exfalso
      obtain ⟨pre, k1, _, k3⟩ := hi.split e.1
      rw [hP] at k1
      have hz : pre.filterMap LAct.req = [] := by
        have : ([LAct.bcast, .bcast, .sync, .bcast, .bcast, .sync] : List LAct).filterMap LAct.req = [] := rfl
        rw [show ([LAct.bcast, .bcast, .sync, .bcast, .bcast, .sync] : List LAct) = pre ++ s.todo e.1 from k1,
          List.filterMap_append, List.append_eq_nil_iff] at this
        exact this.1
      rw [hz, hl] at k3
      simp at k3
  rw [hi.file, this]; rfl

/-! ### C62 -/

/-- What a call is: too short, in a known mode, or in an unknown one. -/
def modeLetter (args : List Bytes) : Option UInt8 := (args[1]?.getD []).head?

/-- C62 (violated): extracting (X) and listing (T) do nothing: all ranks end with status 0 and the
archive is neither read nor anything written. -/
theorem C62_extract_and_list_do_nothing (L : LegEnv) (Q : QSort Frag) (nul : Bytes) (tree : Bytes → Option FNode × FNode)
    (args : List Bytes) (n : Nat) (openOk : Bool)
    (h : (modeLetter args = some 88 ∧ 4 ≤ args.length) ∨ (modeLetter args = some 84 ∧ 3 ≤ args.length)) :
    (∀ r, rankMain L Q nul tree args n openOk r = ⟨[.sync], .exited 0⟩) ∧
    AllEnd (rankMain L Q nul tree args n openOk) n ∧
    ∀ eager old s, LReach (rankMain L Q nul tree args n openOk) n eager old s → s.file = old := by
  have hP : ∀ r, rankMain L Q nul tree args n openOk r = ⟨[.sync], .exited 0⟩ := by
    intro r
    unfold modeLetter at h
    unfold rankMain
    simp only []
    rcases h with ⟨h1, h2⟩ | ⟨h1, h2⟩
    · rw [h1]
      simp only [Option.getD_some]
      rw [if_neg (by rintro (h | ⟨h, _⟩) <;> omega)]; rfl
    · rw [h1]
      simp only [Option.getD_some]
      rw [if_neg (by rintro (h | ⟨_, h⟩); omega; exact h rfl)]; rfl
  refine ⟨hP, allEnd_of (K := 1) (fun r _ => by rw [hP]; rfl), ?_⟩
  intro eager old s hs
  have hi := hs.inv
  have : s.log = [] := by
    cases hl : s.log with
    | nil => rfl
    | cons e l =>
      exfalso
      obtain ⟨pre, k1, _, k3⟩ := hi.split e.1
      rw [hP] at k1
      have hz : pre.filterMap LAct.req = [] := by
        have : ([LAct.sync] : List LAct).filterMap LAct.req = [] := rfl
        rw [show ([LAct.sync] : List LAct) = pre ++ s.todo e.1 from k1,
          List.filterMap_append, List.append_eq_nil_iff] at this
        exact this.1
      rw [hz, hl] at k3
      simp at k3
  rw [hi.file, this]; rfl

/-- `parfu_0_5_1 X a d` and `parfu_0_5_1 Tree a`. -/
example : (modeLetter [[112], [88], [97], [100]] = some 88 ∧ 4 ≤ [[112], [88], [97], [100]].length) ∧
    (modeLetter [[112], [84, 114], [97]] = some 84 ∧ 3 ≤ [[112], [84, 114], [97]].length) := by decide

/-- C62: a call with too few arguments ends at once on all ranks, with the usage message and status -1. -/
theorem C62_usage (L : LegEnv) (Q : QSort Frag) (nul : Bytes) (tree : Bytes → Option FNode × FNode)
    (args : List Bytes) (n : Nat) (openOk : Bool)
    (h : args.length < 3 ∨ (args.length = 3 ∧ modeLetter args ≠ some 84)) :
    (∀ r, rankMain L Q nul tree args n openOk r = ⟨[], .exited (-1)⟩) ∧
    ∀ eager old s, LReach (rankMain L Q nul tree args n openOk) n eager old s → s = .start (rankMain L Q nul tree args n openOk) old := by
  have hP : ∀ r, rankMain L Q nul tree args n openOk r = ⟨[], .exited (-1)⟩ := by
    intro r
    unfold rankMain
    simp only []
    rw [if_pos]
    rcases h with h | ⟨h1, h2⟩
    · exact .inl h
    · refine .inr ⟨h1, ?_⟩
      unfold modeLetter at h2
      intro hc
      cases hm : (args[1]?.getD []).head? with
      | none => rw [hm] at hc; exact absurd hc (by decide)
      | some x => rw [hm] at hc h2; simp only [Option.getD_some] at hc; exact h2 (by rw [hc])
  refine ⟨hP, ?_⟩
  intro eager old s hs
  induction hs with
  | start => rfl
  | step _ hst ih =>
    subst ih
    cases hst with
    | write hr h => simp [LSys.start, hP] at h
    | leave hr h => simp [LSys.start, hP] at h

/-- C62 (violated): in an unknown mode rank 0 returns -2, and all other ranks wait for it in
`MPI_Finalize` for ever. -/
theorem C62_unknown_mode (L : LegEnv) (Q : QSort Frag) (nul : Bytes) (tree : Bytes → Option FNode × FNode)
    (args : List Bytes) (n : Nat) (openOk : Bool) (h : 4 ≤ args.length)
    (hm : modeLetter args ≠ some 67 ∧ modeLetter args ≠ some 88 ∧ modeLetter args ≠ some 84) (r : Nat) (h0 : 0 < r) (hr : r < n) :
    (rankMain L Q nul tree args n openOk 0).stop = .exited (-2) ∧ NeverEnds (rankMain L Q nul tree args n openOk) n r := by
  have hP : ∀ r, rankMain L Q nul tree args n openOk r = if r = 0 then ⟨[], .exited (-2)⟩ else ⟨[.sync], .exited 0⟩ := by
    intro r
    unfold modeLetter at hm
    unfold rankMain
    simp only []
    rw [if_neg (by omega)]
    cases hx : (args[1]?.getD []).head? with
    | none => simp
    | some x =>
      rw [hx] at hm
      obtain ⟨m1, m2, m3⟩ := hm
      have m1' : ¬ x = 67 := fun h => m1 (by rw [h])
      have m2' : ¬ x = 88 := fun h => m2 (by rw [h])
      have m3' : ¬ x = 84 := fun h => m3 (by rw [h])
      simp [m1', m2', m3']
  refine ⟨by rw [hP]; rfl, ?_⟩
  intro eager old s hs
  refine hs.stuck (a := 0) (by omega) hr (c := 0) ?_ (.inl ?_)
  · rw [hP]; simp [collsOf]
  · rw [hP, if_neg (by omega)]; rfl

example : 4 ≤ [[112], [99], [97], [100]].length ∧ modeLetter [[112], [99], [97], [100]] ≠ some 67 := by decide

end Parfu.Props
