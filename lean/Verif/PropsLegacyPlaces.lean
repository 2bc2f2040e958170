/-
Property theorems C85, parfu 0.5.1: the catalog does not depend on what may change without a change of shape.
-/
import Verif.PropsPlaces
import Verif.PropsBoth
import Verif.PropsLegacyShape
set_option autoImplicit false

namespace Parfu.Props
open Parfu MoveSpec ScanSpec LegacyScanSpec LegacyRunSpec

/-- **C85 (0.5.1)** Two 0.5.1 runs on trees of the same shape (contents, permissions, owners and times may have
changed), at any two times, with any numbers of ranks: what is written in front of the data is written at the same
positions, and the catalog is the same, byte for byte - so every file has the same entry in it. -/
theorem C85_legacy_same_catalog {L L' : LegEnv} {Q : QSort Frag} {nul top : Bytes} {root root' : FNode} {n n' : Nat}
    {seen seen' : Option FNode} (hseen : DirOrLink seen) (hseen' : DirOrLink seen') (hsh : SameShape root root')
    {front front' : List WriteReq} {wss wss' : List (List WriteReq)}
    (h : legacyMain L Q nul top seen root n = .ok (some (front, wss)))
    (h' : legacyMain L' Q nul top seen' root' n' = .ok (some (front', wss'))) :
    ∃ cat, (512, cat) ∈ front ∧ (512, cat) ∈ front' ∧ front.map Prod.fst = front'.map Prod.fst := by
  have hl : legacyScan top seen root = legacyScan top seen' root' := by
    rw [legacyScan_shape top seen root root' hsh]
    unfold legacyScan
    rw [(topAllowed_iff seen).2 hseen, (topAllowed_iff seen').2 hseen']
  have key : ∀ (L : LegEnv) (n : Nat) (root : FNode) (seen : Option FNode) (front : List WriteReq) (wss : List (List WriteReq)),
      legacyMain L Q nul top seen root n = .ok (some (front, wss)) →
      ∃ l es cat, legacyScan top seen root = .ok (some l) ∧ fillRel top l.frags = .ok es ∧
        listToBuffer nul true legBucket (qsortEntries Q es) = .ok (some cat) ∧
        frontWrites L legBlock.toNat legBucket.toNat cat = .ok front := by
    intro L n root seen front wss h
    unfold legacyMain at h
    obtain ⟨l, hs, h⟩ := bindRO_eq h
    split at h
    · cases h
    · rename_i es hf
      unfold legacyRun at h
      obtain ⟨cat, hb, h⟩ := bindRO_eq h
      split at h
      · cases h
      · rename_i fr hw
        obtain ⟨_, _, h⟩ := bindRO_eq h
        obtain ⟨_, _, h⟩ := bindRO_eq h
        obtain ⟨_, _, h⟩ := bindRO_eq h
        split at h
        · cases h
        · obtain ⟨_, _, h⟩ := bindRO_eq h
          simp only [Except.ok.injEq, Option.some.injEq, Prod.mk.injEq] at h
          exact ⟨l, es, cat, hs, hf, hb, by rw [← h.1]; exact hw⟩
  obtain ⟨l, es, cat, k1, k2, k3, k4⟩ := key L n root seen front wss h
  obtain ⟨l', es', cat', m1, m2, m3, m4⟩ := key L' n' root' seen' front' wss' h'
  rw [hl, m1] at k1
  cases k1
  rw [k2] at m2
  cases m2
  rw [k3] at m3
  cases m3
  refine ⟨cat, ?_⟩
  unfold frontWrites at k4 m4
  split at k4
  · cases k4
  · rename_i hh hh1
    rw [hh1] at m4
    simp only at m4
    split at k4
    · cases k4
    · rename_i h512
      rw [if_neg h512] at m4
      have h512 : hh = 512 := by simpa using h512
      subst h512
      simp only [Except.ok.injEq] at k4 m4
      rw [← k4, ← m4]
      refine ⟨by simp, by simp, ?_⟩
      cases catalogGap legBlock.toNat legBucket.toNat 512 (512 + cat.length) <;> simp

/-! ### a concrete case -/

def locEnv (z : UInt8) : LegEnv := ⟨demoEnv2, locFs z, false, fun _ => 1700000000, 1700000000, 1700000000⟩

theorem loc_at {z : UInt8} {p : List Bytes} {n : FNode} (h : At (locTree z) p n) :
    (p, n) ∈ [(([] : List Bytes), locTree z), ([[97]], .reg ⟨420, 0, 0, 0⟩ [1, 2]), ([[98]], .reg ⟨420, 0, 0, 0⟩ [z])] := by
  unfold locTree at h
  cases h with
  | self => simp [locTree]
  | step hc h' =>
    cases hc with
    | here => cases h'; simp
    | there hc =>
    cases hc with
    | here => cases h'; simp
    | there hc => cases hc

theorem loc_at_cases {z : UInt8} {p : List Bytes} {n : FNode} (h : At (locTree z) p n) :
    (p = [] ∧ n = locTree z) ∨ (p = [[97]] ∧ n = .reg ⟨420, 0, 0, 0⟩ [1, 2]) ∨ (p = [[98]] ∧ n = .reg ⟨420, 0, 0, 0⟩ [z]) := by
  simpa only [List.mem_cons, List.not_mem_nil, or_false, Prod.mk.injEq] using loc_at h

theorem loc_leg (z : UInt8) : LegArchivable demoEnv2 (locFs z) [100] (locTree z) := by
  constructor
  · trivial
  · simp [locTree, TreeOk, KidsOk, names, NameOk]
  · intro p m o k h
    rcases loc_at_cases h.1 with ⟨_, h⟩ | ⟨_, h⟩ | ⟨_, h⟩ <;> simp [locTree] at h
    exact h.2.1
  · intro p n h
    rcases loc_at_cases h.1 with ⟨rfl, rfl⟩ | ⟨rfl, rfl⟩ | ⟨rfl, rfl⟩ <;> rfl
  · decide
  · decide
  · intro p n h
    rcases loc_at_cases h.1 with ⟨rfl, rfl⟩ | ⟨rfl, rfl⟩ | ⟨rfl, rfl⟩ <;> exact Nat.le_of_ble_eq_true rfl
  · intro p m o k h hp
    rcases loc_at_cases h.1 with ⟨rfl, _⟩ | ⟨rfl, _⟩ | ⟨rfl, _⟩ <;> decide
  · intro p m t h
    rcases loc_at_cases h.1 with ⟨_, h⟩ | ⟨_, h⟩ | ⟨_, h⟩ <;> simp [locTree] at h
  · intro p n h
    rcases loc_at_cases h.1 with ⟨rfl, rfl⟩ | ⟨rfl, rfl⟩ | ⟨rfl, rfl⟩ <;> (first | decide | (intro h; exact absurd h (by decide)) | simp [pathText, locTree, describe])
  · intro p n h _
    have hm : metaOf n = ⟨420, 0, 0, 0⟩ := by
      rcases loc_at_cases h.1 with ⟨rfl, rfl⟩ | ⟨rfl, rfl⟩ | ⟨rfl, rfl⟩ <;> rfl
    rw [hm]
    exact ⟨by decide, by decide, by decide, by decide, ⟨[114], rfl, by decide, by decide⟩, ⟨[103], rfl, by decide, by decide⟩⟩
  · intro p m c h
    rcases loc_at_cases h.1 with ⟨_, h⟩ | ⟨_, h⟩ | ⟨_, h⟩ <;> simp [locTree] at h <;> obtain ⟨_, rfl⟩ := h <;> simp
  · refine ⟨[[98]], .reg ⟨420, 0, 0, 0⟩ [z], by simp, ⟨.step (.there (.here (by decide) (by decide))) (.self _), ?_⟩, by simp [describe]⟩
    simp [NoHidden]

theorem loc_platform (z : UInt8) : Platform (locEnv z) glibcNull :=
  ⟨rfl, fun _ => by simp [locEnv], by simp [locEnv], by simp [locEnv], by decide⟩

theorem loc_runs (z : UInt8) (Q : QSort Frag) (n : Nat) (hn : 0 < n) :
    ∃ front wss, legacyMain (locEnv z) Q glibcNull [100] (some (locTree z)) (locTree z) n = .ok (some (front, wss)) := by
  refine C48_run_succeeds (locEnv z) Q glibcNull [100] (locTree z) (loc_platform z) (by decide) (loc_leg z)
    (some (locTree z)) trivial n hn ?_ ?_
  · intro p n h
    constructor
    · rcases loc_at_cases h.1 with ⟨rfl, rfl⟩ | ⟨rfl, rfl⟩ | ⟨rfl, rfl⟩ <;> exact Nat.le_of_ble_eq_true rfl
    · rintro m t rfl
      rcases loc_at_cases h.1 with ⟨_, h⟩ | ⟨_, h⟩ | ⟨_, h⟩ <;> simp [locTree] at h
  · intro os hnd hv
    have hl : os.length ≤ 3 := (List.subperm_of_subset hnd (fun o ho => loc_at (hv o ho).1)).length_le
    have : ∀ o ∈ os, fileLength o.2 / 4194304 + 2 ≤ 2 := by
      intro o ho
      rcases o with ⟨p, n⟩
      rcases loc_at_cases (hv _ ho).1 with ⟨_, h⟩ | ⟨_, h⟩ | ⟨_, h⟩ <;> simp only [] at h <;> rw [h] <;> simp [fileLength, locTree]
    have := sum_le_mul (fun o => fileLength o.2 / 4194304 + 2) os 2 this
    omega

/-- The file `b` of the tree is overwritten with another byte, and there are more ranks. -/
example (Q : QSort Frag) : ∃ cat front wss front' wss',
    legacyMain (locEnv 5) Q glibcNull [100] (some (locTree 5)) (locTree 5) 2 = .ok (some (front, wss)) ∧
    legacyMain (locEnv 6) Q glibcNull [100] (some (locTree 6)) (locTree 6) 3 = .ok (some (front', wss')) ∧
    (512, cat) ∈ front ∧ (512, cat) ∈ front' := by
  obtain ⟨front, wss, h⟩ := loc_runs 5 Q 2 (by decide)
  obtain ⟨front', wss', h'⟩ := loc_runs 6 Q 3 (by decide)
  obtain ⟨cat, h1, h2, _⟩ := C85_legacy_same_catalog (seen := some (locTree 5)) (seen' := some (locTree 6))
    trivial trivial (by simp [locTree, SameShape, SameKids]) h h'
  exact ⟨cat, front, wss, front', wss', h, h', h1, h2⟩

end Parfu.Props
