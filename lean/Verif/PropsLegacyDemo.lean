/-
A concrete tree that meets the hypotheses of the theorems C46 to C50.
-/
import Verif.PropsLegacyGap
set_option autoImplicit false

namespace Parfu.Props
open Parfu ScanSpec LegacyScanSpec MoveSpec TarSpec LegacyRunSpec

/-- The visible objects of `legDemo`. -/
def legSeen : List (List Bytes × FNode) :=
  [([], legDemo), ([[97]], .reg ⟨0, 0, 0, 0⟩ [1, 2]),
   ([[98]], .dir ⟨0, 0, 0, 0⟩ true (.cons [99] (.lnk ⟨0, 0, 0, 0⟩ [120]) .nil)),
   ([[98], [99]], .lnk ⟨0, 0, 0, 0⟩ [120])]

theorem leg_seen {p : List Bytes} {n : FNode} (h : Visible legDemo p n) : (p, n) ∈ legSeen := by
  obtain ⟨h, hh⟩ := h
  unfold legDemo at h
  cases h with
  | self => simp [legSeen, legDemo]
  | step hc h' =>
    cases hc with
    | here h1 h2 => exact absurd rfl h1
    | there hc =>
    cases hc with
    | here h1 h2 => exact absurd rfl h2
    | there hc =>
    cases hc with
    | here h1 h2 => cases h'; simp [NoHidden] at hh
    | there hc =>
    cases hc with
    | here h1 h2 => cases h'; simp [legSeen]
    | there hc =>
    cases hc with
    | here h1 h2 =>
      cases h' with
      | self => simp [legSeen]
      | step hc h' =>
        cases hc with
        | here => cases h'; simp [legSeen]
        | there hc => cases hc
    | there hc => cases hc

theorem leg_cases {p : List Bytes} {n : FNode} (h : Visible legDemo p n) : (p = [] ∧ n = legDemo) ∨
    (p = [[97]] ∧ n = .reg ⟨0, 0, 0, 0⟩ [1, 2]) ∨
    (p = [[98]] ∧ n = .dir ⟨0, 0, 0, 0⟩ true (.cons [99] (.lnk ⟨0, 0, 0, 0⟩ [120]) .nil)) ∨
    (p = [[98], [99]] ∧ n = .lnk ⟨0, 0, 0, 0⟩ [120]) := by
  have := leg_seen h
  simpa only [legSeen, List.mem_cons, List.not_mem_nil, or_false, Prod.mk.injEq] using this

/-- The file system: the tree is the directory `d`. -/
def legFs : FS := fun path => (legSeen.find? (fun x => [100, 47] ++ pathText x.1 == path)).map Prod.snd

/-- The surroundings of the run. -/
def legEnv : LegEnv := ⟨demoEnv2, legFs, false, fun _ => 1700000000, 1700000000, 1700000000⟩

theorem leg_platform : Platform legEnv glibcNull :=
  ⟨rfl, fun _ => by simp [legEnv], by simp [legEnv], by simp [legEnv], by decide⟩

theorem leg_archivable : LegArchivable demoEnv2 legFs [100] legDemo := by
  have hb : baseOf [100] = [100] := rfl
  constructor
  · trivial
  · simp [legDemo, TreeOk, KidsOk, names, NameOk]
  · intro p m o k h; exact legDemo_dirs p m o k h.1
  · intro p n h
    rcases leg_cases h with ⟨rfl, rfl⟩ | ⟨rfl, rfl⟩ | ⟨rfl, rfl⟩ | ⟨rfl, rfl⟩ <;> rfl
  · decide
  · decide
  · intro p n h
    rcases leg_cases h with ⟨rfl, rfl⟩ | ⟨rfl, rfl⟩ | ⟨rfl, rfl⟩ | ⟨rfl, rfl⟩ <;> decide
  · intro p m o k h _
    have : p = [] ∨ p = [[98]] ∨ p = [[97]] ∨ p = [[98], [99]] := by
      rcases leg_cases h with ⟨h, _⟩ | ⟨h, _⟩ | ⟨h, _⟩ | ⟨h, _⟩ <;> simp [h]
    rcases this with rfl | rfl | rfl | rfl <;> decide
  · intro p m t h
    rcases leg_cases h with ⟨_, h⟩ | ⟨_, h⟩ | ⟨_, h⟩ | ⟨_, h⟩ <;> simp [legDemo] at h
    obtain ⟨_, rfl⟩ := h
    decide
  · intro p n h
    rcases leg_cases h with ⟨rfl, rfl⟩ | ⟨rfl, rfl⟩ | ⟨rfl, rfl⟩ | ⟨rfl, rfl⟩ <;> decide
  · intro p n h _
    have hm : metaOf n = ⟨0, 0, 0, 0⟩ := by
      rcases leg_cases h with ⟨rfl, rfl⟩ | ⟨rfl, rfl⟩ | ⟨rfl, rfl⟩ | ⟨rfl, rfl⟩ <;> rfl
    rw [hm]
    exact ⟨by decide, by decide, by decide, by decide, ⟨[114], rfl, by decide, by decide⟩,
      ⟨[103], rfl, by decide, by decide⟩⟩
  · intro p m c h
    rcases leg_cases h with ⟨_, h⟩ | ⟨_, h⟩ | ⟨_, h⟩ | ⟨_, h⟩ <;> simp [legDemo] at h
    obtain ⟨_, rfl⟩ := h
    simp
  · refine ⟨[[97]], .reg ⟨0, 0, 0, 0⟩ [1, 2], by simp, ⟨.step (.there (.there (.there (.here (by decide) (by decide))))) (.self _), ?_⟩, by simp [describe]⟩
    simp [NoHidden]

theorem leg_short : ∀ p m, Visible legDemo p m → (archivedPath (baseOf [100]) p m).length ≤ 100 ∧
    ∀ d t, m = .lnk d t → t.length ≤ 100 := by
  intro p n h
  rcases leg_cases h with ⟨rfl, rfl⟩ | ⟨rfl, rfl⟩ | ⟨rfl, rfl⟩ | ⟨rfl, rfl⟩ <;>
    refine ⟨by decide, ?_⟩ <;> intro m t h <;> simp [legDemo] at h
  rw [← h.2]; decide

theorem leg_count (os : List (List Bytes × FNode)) (hnd : os.Nodup) (hv : ∀ o ∈ os, Visible legDemo o.1 o.2) :
    (os.map fun o => fileLength o.2 / 4194304 + 2).sum ≤ 500000 := by
  have hl := (List.subperm_of_subset hnd (fun o ho => leg_seen (hv o ho))).length_le
  have h4 : legSeen.length = 4 := rfl
  have : ∀ o ∈ os, fileLength o.2 / 4194304 + 2 ≤ 2 := by
    intro o ho
    rcases o with ⟨p, n⟩
    rcases leg_cases (hv _ ho) with ⟨_, h⟩ | ⟨_, h⟩ | ⟨_, h⟩ | ⟨_, h⟩ <;> simp only [] at h <;> rw [h] <;> simp [fileLength, legDemo]
  have := sum_le_mul (fun o => fileLength o.2 / 4194304 + 2) os 2 this
  omega

/-- The example tree also meets the hypotheses of C48_long_names. -/
example (Q : QSort Frag) : ∃ front wss, legacyMain legEnv Q glibcNull [100] (some legDemo) legDemo 3 = .ok (some (front, wss)) := by
  refine C48_long_names legEnv Q glibcNull [100] legDemo leg_platform (by decide) leg_archivable (some legDemo) trivial 3
    (by omega) ?_ ?_ ?_
  · intro p d t h; exact (leg_short p _ h).2 d t rfl
  · intro p n h
    rcases leg_cases h with ⟨_, h⟩ | ⟨_, h⟩ | ⟨_, h⟩ | ⟨_, h⟩ <;> rw [h] <;> simp [fileLength, legDemo]
  · intro os hnd hv
    have hl := (List.subperm_of_subset hnd (fun o ho => leg_seen (hv o ho))).length_le
    have h4 : legSeen.length = 4 := rfl
    have : ∀ o ∈ os, fileLength o.2 / 4194304 + 2 ≤ 2 := by
      intro o ho
      rcases o with ⟨p, n⟩
      rcases leg_cases (hv _ ho) with ⟨_, h⟩ | ⟨_, h⟩ | ⟨_, h⟩ | ⟨_, h⟩ <;> simp only [] at h <;> rw [h] <;> simp [fileLength, legDemo]
    have := sum_le_mul (fun o => fileLength o.2 / 4194304 + 2) os 2 this
    omega

/-- Five ranks archive the example tree: the run succeeds, and whatever the order of the writes and the
old contents of the file, the archive is readable and holds the file `d/a` with its two bytes. -/
theorem leg_demo_run (Q : QSort Frag) : ∃ front wss, legacyMain legEnv Q glibcNull [100] (some legDemo) legDemo 5 = .ok (some (front, wss)) ∧
    (∀ cat, (512, cat) ∈ front → (cat.length + 1024) % 4194304 ≠ 0) ∧
    ∀ (ws : List WriteReq) (old : Bytes), ws.Perm (front ++ wss.flatten) →
      ∃ ms, readArchive (ws.foldl writeAt old) = some ms ∧ ∃ m ∈ ms, m.path = [100, 47, 97] ∧ m.data = [1, 2] ∧ m.flag = 48 := by
  obtain ⟨front, wss, h⟩ := C48_run_succeeds legEnv Q glibcNull [100] legDemo leg_platform (by decide) leg_archivable
    (some legDemo) trivial 5 (by omega) leg_short leg_count
  have hgap : ∀ cat, (512, cat) ∈ front → (cat.length + 1024) % 4194304 ≠ 0 := by
    obtain ⟨es, ms, h1, h3, h4, h5, h8, h9, h6, h7⟩ := main_run (L := legEnv) leg_platform leg_archivable Q
    have h' := h
    rw [h1 _ rfl] at h'
    obtain ⟨hap, cat, z, hcat, hfr, _⟩ := run_writes h3 blocking_free leg_platform.nul (by omega) h'
    have hlines : ∀ e ∈ es, (catLine glibcNull true e).length ≤ 640 := by
      intro e he
      obtain ⟨p, n, hv, _, _, _, _, hs⟩ := h7 e he
      obtain ⟨_, q2, _, q3, _⟩ := hs (leg_short p n hv).1 (leg_short p n hv).2
      exact lineArc_le (h3.plain e he) q3 q2
    have hsum := sum_le_mul (fun e => (catLine glibcNull true e).length) es 640 hlines
    have hel : es.length ≤ 4 := by
      have hsub : es.map Frag.arc ⊆ legSeen.map (fun x => pathText x.1) := by
        intro a ha
        obtain ⟨e, he, rfl⟩ := List.mem_map.1 ha
        obtain ⟨p, n, hv, _, harc, _⟩ := h7 e he
        exact List.mem_map.2 ⟨(p, n), leg_seen hv, harc.symm⟩
      have := (List.subperm_of_subset h5 hsub).length_le
      simpa [legSeen] using this
    have hcount := listToBuffer_count hcat
    obtain ⟨t1, t2, _⟩ := listToBuffer_text hcat
    have hb : legBucket = 4194304 := rfl
    have hfl : ((es.map (catLine glibcNull true)).flatten).length = (es.map (fun e => (catLine glibcNull true e).length)).sum := by
      rw [List.length_flatten, List.map_map]; rfl
    have hlen : cat.length ≤ 3000 := by
      rw [t1]
      have v1 : versionText.length = 10 := rfl
      have v2 : (typeText true).length = 10 := rfl
      simp only [catText, List.length_append, List.length_singleton, hfl, v1, v2]
      rw [pad10_len (by omega) (by omega), pad10_len (by omega) (by omega), pad10_len (by omega) (by omega)]
      omega
    intro cat' hc
    by_cases he : cat' = cat
    · rw [he]; omega
    · have hs : Std.Symm WApart := ⟨fun _ _ => WApart.symm⟩
      have := (List.pairwise_append.1 hap).1.forall hc hfr.text (by simpa using he)
      unfold WApart Apart at this
      simp only [] at this
      have h2 : 0 < cat.length := by rw [t1]; simp [catText]
      omega
  refine ⟨front, wss, h, hgap, ?_⟩
  intro ws old hws
  obtain ⟨c, all, hr, _, _, _, _, hm, _⟩ := C46_archive_partial legEnv Q glibcNull [100] legDemo leg_platform leg_archivable
    (some legDemo) trivial 5 (by omega) front wss h hgap ws hws old
  refine ⟨_, hr, ?_⟩
  let m : Member := { path := [100, 47, 97], flag := 48, linkpath := [], mode := 0, uid := 0, gid := 0, mtime := 0, uname := [114], gname := [103], size := 2, data := [1, 2] }
  have : m ∈ all.filter (fun m => !ownMember m) := by
    refine (hm.1 m).2 ⟨[[97]], .reg ⟨0, 0, 0, 0⟩ [1, 2], ⟨.step (.there (.there (.there (.here (by decide) (by decide))))) (.self _), ?_⟩, rfl⟩
    simp [NoHidden]
  exact ⟨m, List.mem_cons_of_mem _ (List.mem_filter.1 this).1, rfl, rfl, rfl⟩

end Parfu.Props
