/-
C55: an interrupted run that looks complete exists for every tree with a large file, and a concrete one.
-/
import Verif.PropsLegacyCrash
import Verif.PropsLegacyDemo
set_option autoImplicit false

namespace Parfu.Props
open Parfu ScanSpec LegacyScanSpec MoveSpec TarSpec LegacyRunSpec RanksSpec

/-- A member that is read takes at least its data from the archive. -/
theorem takeData_len {r : Raw} {recs : List (Bytes × Bytes)} {b rest : Bytes} {m : Member} (h : takeData r recs b = some (m, rest)) :
    m.data.length ≤ b.length ∧ rest.length ≤ b.length := by
  unfold takeData at h
  split at h
  · cases h
  split at h
  · cases h
  · simp only [Option.some.injEq, Prod.mk.injEq] at h
    obtain ⟨rfl, rfl⟩ := h
    simp

theorem readMember_len {b rest : Bytes} {m : Member} (h : readMember b = some (m, rest)) :
    m.data.length ≤ b.length ∧ rest.length ≤ b.length := by
  unfold readMember at h
  split at h
  · cases h
  split at h
  · split at h
    · cases h
    split at h
    · cases h
    split at h
    · cases h
    split at h
    · cases h
    · have := takeData_len h
      simp only [List.length_drop] at this
      omega
  · have := takeData_len h
    simp only [List.length_drop] at this
    omega

theorem readArchive_len (b : Bytes) (ms : List Member) (h : readArchive b = some ms) : ∀ m ∈ ms, m.data.length ≤ b.length := by
  induction hn : b.length using Nat.strongRecOn generalizing b ms with
  | _ k ih =>
    rw [readArchive] at h
    split at h
    · simp at h; subst h; simp
    split at h
    · cases h
    · rename_i m rest hm
      have hl := readMember_len hm
      split at h
      · rename_i hlt
        split at h
        · cases h
        · rename_i ms' hms
          simp at h; subst h
          intro m' hm'
          rcases List.mem_cons.1 hm' with rfl | hm'
          · omega
          · have := ih rest.length (by omega) rest ms' hms rfl m' hm'
            omega
      · cases h

/-- The buckets of the second rank of a successful run. -/
theorem run_second {L : LegEnv} {nul pad : Bytes} {acc : Int} {es : List Frag} {ms : List Member} (hr : RunOk L acc es ms)
    (hpad : LegTabFree pad) (hnul : LegTabFree nul) {n : Nat} (hn : 2 ≤ n) {front : List WriteReq} {wss : List (List WriteReq)}
    (h : legacyRun L nul 512 acc pad es n = .ok (some (front, wss))) :
    ∃ (cat : Bytes) (K : Nat), listToBuffer nul true acc es = .ok (some cat) ∧
      (∀ w ∈ wss.flatten, w.1 + w.2.length ≤ dataOffset acc.toNat (512 + cat.length) + K * acc.toNat + 1024) ∧
      (2 ≤ K → ∃ ws w, wss[1]? = some ws ∧ w ∈ ws ∧ w.2 ≠ []) := by
  unfold legacyRun at h
  obtain ⟨cat, hcat, h⟩ := bindRO_eq h
  split at h
  · cases h
  rename_i fr hfw
  obtain ⟨⟨gs, r⟩, hsp, h⟩ := bindRO_eq h
  simp only [] at h
  obtain ⟨text, htx, h⟩ := bindRO_eq h
  obtain ⟨call, hcl, h⟩ := bindRO_eq h
  split at h
  · cases h
  rename_i hck
  have hck : checkCalls (outFrags gs) call = true := by simpa using hck
  obtain ⟨wss', hall, h⟩ := bindRO_eq h
  simp only [Except.ok.injEq, Option.some.injEq, Prod.mk.injEq] at h
  obtain ⟨rfl, rfl⟩ := h
  have hs := hr.setup
  have hmin := hr.accMin
  have hlay := run_layout hr hpad hnul (by omega) hsp htx hcl hck hall
  have hready := run_ready hr nul hlay hcl hck _ (Or.inr rfl)
  have hrt := run_text hr hpad hnul hsp htx hcl hck
  have hone : ∀ rk, rankPart L 512 acc (dataOffset acc.toNat (512 + cat.length)) text call n rk =
      allBuckets L 512 acc (dataOffset acc.toNat (512 + cat.length)) ((outFrags gs).map (named nul)) call n rk := by
    intro rk
    unfold rankPart
    rw [hrt, bindRO_some]
    simp only []
    rw [if_neg (by rw [hready.check]; simp)]
  refine ⟨cat, call.length, hcat, ?_, ?_⟩
  · obtain ⟨gs', D, wss2, e1, k1, k2, k3, k4, k5⟩ := run_core hr hpad hnul (n := n) (by omega)
      (dstart := dataOffset acc.toNat (512 + cat.length)) hsp htx hcl hck hlay
    rw [hall] at e1
    simp only [Except.ok.injEq, Option.some.injEq] at e1
    subst e1
    intro w hw
    have hw := k5.mem_iff.1 hw
    unfold writesFor at hw
    obtain ⟨i, hi, hw⟩ := List.mem_flatMap.1 hw
    rw [List.mem_range] at hi
    obtain ⟨rest, r1, r2, r3, r4⟩ := k1.drop hi
    obtain ⟨g1, g2, g3⟩ := k1.group hs.accDvd r2
    have hD := (k4 i hi).length_le g3 g2 hs.accDvd
    have hm : (i + 1) * acc.toNat ≤ call.length * acc.toNat := Nat.mul_le_mul_right _ hi
    have e : (i + 1) * acc.toNat = i * acc.toNat + acc.toNat := by rw [Nat.add_mul]; omega
    unfold bucketWrites at hw
    rcases List.mem_cons.1 hw with rfl | hw
    · simp only []; omega
    · split at hw
      · simp only [List.mem_singleton] at hw
        subst hw
        have hzl : (zeros 1024).length = 1024 := by unfold zeros; rw [List.length_replicate]
        simp only [hzl]; omega
      · simp at hw
  · intro hK
    have hf := (allRanks_iff _ _ _).1 hall
    obtain ⟨D, e1, b1⟩ := allBuckets_ok hs (dstart := dataOffset acc.toNat (512 + cat.length)) hready (n := n) (by omega) 1
    have h1 : wss'[1]? = some (writesFor acc (dataOffset acc.toNat (512 + cat.length)) call.length D (rankBuckets n call.length 1)) := by
      have hl := hf.length_eq
      rw [List.length_range] at hl
      have := (List.forall₂_iff_get.1 hf).2 1 (by rw [List.length_range]; omega) (by omega)
      simp only [List.get_eq_getElem, List.getElem_range] at this
      rw [hone, e1] at this
      simp only [Except.ok.injEq, Option.some.injEq] at this
      rw [this]
      exact List.getElem?_eq_getElem _
    have hb : rankBuckets n call.length 1 = 1 :: rankBuckets n call.length (1 + n) := by
      rw [rankBuckets, dif_pos ⟨by omega, by omega⟩]
    refine ⟨_, (dataOffset acc.toNat (512 + cat.length) + 1 * acc.toNat, D 1), h1, ?_, ?_⟩
    · rw [hb]; unfold writesFor bucketWrites; simp
    · obtain ⟨rest, r1, r2, r3, r4⟩ := hready.drop (k := 1) (by omega)
      obtain ⟨g1, g2, g3⟩ := hready.group hs.accDvd r2
      have hD := b1 1 (by rw [hb]; simp)
      have hz := g1.bounds.1
      intro h0
      simp only [] at h0
      by_cases hlt : endOfGroup ((outFrags gs).map (named nul)) 1 < acc * (1 : Nat) + acc
      · have := (hD.filler hlt).1
        rw [h0] at this; simp at this; omega
      · have := hD.full (by omega)
        rw [h0] at this; simp at this; omega

/-- With a visible file of at least two buckets the second rank has something to write. -/
theorem second_bucket {L : LegEnv} {Q : QSort Frag} {nul arc top : Bytes} {tree : Bytes → Option FNode × FNode} {args : List Bytes}
    {n : Nat} {front : List WriteReq} {wss : List (List WriteReq)} (hg : GoodRun L Q nul arc top tree args n front wss) (hn : 2 ≤ n)
    {p : List Bytes} {d : Meta} {c : Bytes} (hv : Visible (tree top).2 p (.reg d c)) (hc : 8388608 ≤ c.length) :
    ∃ ws w, wss[1]? = some ws ∧ w ∈ ws ∧ w.2 ≠ [] := by
  obtain ⟨es, ms, h1, h3, h4, h5, h8, h9, h6, h7⟩ := main_run hg.platform hg.archivable Q
  have hmade := hg.made
  rw [h1 _ ((topAllowed_iff _).2 hg.seen)] at hmade
  obtain ⟨cat, K, hcat, hend, h2⟩ := run_second h3 blocking_free hg.platform.nul hn hmade
  obtain ⟨cat', all, hcat', hfw, _, _, _, hread, hfil⟩ := run_data h3 blocking_free hg.platform.nul (by omega) hmade
    (front ++ wss.flatten) (List.Perm.refl _) []
  rw [hcat] at hcat'
  simp only [Except.ok.injEq, Option.some.injEq] at hcat'
  subst hcat'
  have hb : legBucket.toNat = 4194304 := rfl
  have hK : 2 ≤ K := by
    obtain ⟨m, hm⟩ : ∃ m, memberOf L.env (baseOf top) p (.reg d c) = some m ∧ m.data = c := by
      obtain ⟨_, _, _, _, ⟨u, hu, _⟩, ⟨g, hgr, _⟩⟩ := hg.archivable.owners p _ hv (by simp [describe])
      simp only [metaOf] at hu hgr
      refine ⟨{ path := archivedPath (baseOf top) p (.reg d c), flag := 48, linkpath := [], mode := d.perm % 4096, uid := d.uid, gid := d.gid, mtime := d.mtime.toNat, uname := u, gname := g, size := c.length, data := c }, ?_, rfl⟩
      simp only [memberOf, hu, hgr]
    have hmem : m ∈ all := by
      have := (h4.1 m).2 ⟨p, _, hv, hm.1⟩
      rw [← hfil] at this
      exact (List.mem_filter.1 this).1
    have hlen := readArchive_len _ _ hread.1 m hmem
    rw [hm.2, List.length_drop] at hlen
    have hclen : cat.length < 2 ^ 32 := listToBuffer_le hcat
    have hfront := frontWrites_ok (L := L) (acc := legBucket.toNat) (by decide) (by decide) (by decide) hclen h3.clockCat h3.clockGap hfw
    have hA := (foldl_writeAt_length (front ++ wss.flatten) [] (dataOffset legBucket.toNat (512 + cat.length) + K * legBucket.toNat + 1024)
      (by simp) (by
        intro w hw
        rcases List.mem_append.1 hw with hw | hw
        · have := hfront.below w hw; omega
        · exact hend w hw)).1
    rw [hb] at *
    omega
  exact h2 hK

/-- C55 (violated): for every tree with a visible file of at least two buckets (8388608 bytes) and two or more ranks,
some run into a new file that is interrupted leaves a properly terminated archive with none of the
objects of the tree in it. -/
theorem C55_large_file {L : LegEnv} {Q : QSort Frag} {nul arc top : Bytes} {tree : Bytes → Option FNode × FNode} {args : List Bytes}
    {n : Nat} {front : List WriteReq} {wss : List (List WriteReq)} (hg : GoodRun L Q nul arc top tree args n front wss)
    (hgap : ∀ cat, (512, cat) ∈ front → (cat.length + 1024) % 4194304 ≠ 0) (hn : 2 ≤ n)
    {p : List Bytes} {d : Meta} {c : Bytes} (hv : Visible (tree top).2 p (.reg d c)) (hc : 8388608 ≤ c.length) (eager : Bool) :
    ∃ s, LReach (rankMain L Q nul tree args n true) n eager [] s ∧
      terminated s.file = true ∧ ∃ cat all, readArchive s.file = some (cat :: all) ∧ cat.path = catalogName ∧
        ∀ m ∈ all, ownMember m = true := by
  obtain ⟨ws, w, hws, hw, hwne⟩ := second_bucket hg hn hv hc
  obtain ⟨s, hs, k1, k2⟩ := C55_looks_complete_happens hg eager [] 1 (by decide) ws hws
  exact ⟨s, hs, C55_looks_complete hg hgap eager s hs ⟨1, w, by decide, k1 w hw, hwne⟩ k2⟩

/-- A tree with few visible objects with short names has a short catalog, which is not one block short of a bucket. -/
theorem gap_of_few {L : LegEnv} {Q : QSort Frag} {nul top : Bytes} {root : FNode} (hp : Platform L nul) (hnl : nul.length ≤ 100)
    (ha : LegArchivable L.env L.fs top root) {seen : Option FNode} (hseen : DirOrLink seen) {n : Nat} (hn : 0 < n)
    (hshort : ∀ p m, Visible root p m → (archivedPath (baseOf top) p m).length ≤ 100 ∧ ∀ d t, m = .lnk d t → t.length ≤ 100)
    (os : List (List Bytes)) (hos : ∀ p m, Visible root p m → p ∈ os) (hfew : os.length ≤ 5000)
    {front : List WriteReq} {wss : List (List WriteReq)} (h : legacyMain L Q nul top seen root n = .ok (some (front, wss))) :
    ∀ cat, (512, cat) ∈ front → (cat.length + 1024) % 4194304 ≠ 0 := by
  obtain ⟨es, ms, h1, h3, h4, h5, h8, h9, h6, h7⟩ := main_run hp ha Q
  rw [h1 _ ((topAllowed_iff _).2 hseen)] at h
  obtain ⟨hap, cat, z, hcat, hfr, _⟩ := run_writes h3 blocking_free hp.nul hn h
  have hlines : ∀ e ∈ es, (catLine nul true e).length ≤ 640 := by
    intro e he
    obtain ⟨p, n, hv, _, _, _, _, hs⟩ := h7 e he
    obtain ⟨_, q2, _, q3, _⟩ := hs (hshort p n hv).1 (hshort p n hv).2
    exact lineArc_le (h3.plain e he) q3 q2
  have hsum := sum_le_mul (fun e => (catLine nul true e).length) es 640 hlines
  have hel : es.length ≤ 5000 := by
    have hsub : es.map Frag.arc ⊆ os.map pathText := by
      intro a ha
      obtain ⟨e, he, rfl⟩ := List.mem_map.1 ha
      obtain ⟨p, n, hv, _, harc, _⟩ := h7 e he
      exact List.mem_map.2 ⟨p, hos p n hv, harc.symm⟩
    have := (List.subperm_of_subset h5 hsub).length_le
    simp only [List.length_map] at this
    omega
  have hcount := listToBuffer_count hcat
  obtain ⟨t1, t2, _⟩ := listToBuffer_text hcat
  have hb : legBucket = 4194304 := rfl
  have hfl : ((es.map (catLine nul true)).flatten).length = (es.map (fun e => (catLine nul true e).length)).sum := by
    rw [List.length_flatten, List.map_map]; rfl
  have hlen : cat.length ≤ 3300000 := by
    rw [t1]
    have v1 : versionText.length = 10 := rfl
    have v2 : (typeText true).length = 10 := rfl
    simp only [catText, List.length_append, List.length_singleton, hfl, v1, v2]
    rw [pad10_len (by omega) (by omega), pad10_len (by omega) (by omega), pad10_len (by omega) (by omega)]
    omega
  intro cat' hc
  by_cases he : cat' = cat
  · rw [he]; omega
  · have hs : Std.Symm WApart := ⟨fun _ _ => WApart.symm⟩
    have := (List.pairwise_append.1 hap).1.forall hc hfr.text (by simpa using he)
    unfold WApart Apart at this
    simp only [] at this
    have h2 : 0 < cat.length := by rw [t1]; simp [catText]
    omega

/-! ### A concrete run -/

/-- The contents of the large file: nine million zero bytes. -/
def bigData : Bytes := List.replicate 9000000 0

/-- The directory `d` with one file, `a`. -/
def bigDemo : FNode := .dir ⟨0, 0, 0, 0⟩ true (.cons [97] (.reg ⟨0, 0, 0, 0⟩ bigData) .nil)

theorem big_cases {p : List Bytes} {n : FNode} (h : Visible bigDemo p n) : (p = [] ∧ n = bigDemo) ∨
    (p = [[97]] ∧ n = .reg ⟨0, 0, 0, 0⟩ bigData) := by
  obtain ⟨h, hh⟩ := h
  unfold bigDemo at h
  cases h with
  | self => exact .inl ⟨rfl, rfl⟩
  | step hc h' =>
    cases hc with
    | here h1 h2 => cases h'; exact .inr ⟨rfl, rfl⟩
    | there hc => cases hc

theorem big_visible : Visible bigDemo [[97]] (.reg ⟨0, 0, 0, 0⟩ bigData) :=
  ⟨.step (.here (by decide) (by decide)) (.self _), by simp [NoHidden]⟩

def bigFs : FS := fun path => if path = [100, 47] then some bigDemo else if path = [100, 47, 97] then some (.reg ⟨0, 0, 0, 0⟩ bigData) else none

def bigEnv : LegEnv := ⟨demoEnv2, bigFs, false, fun _ => 1700000000, 1700000000, 1700000000⟩

theorem big_platform : Platform bigEnv glibcNull :=
  ⟨rfl, fun _ => by simp [bigEnv], by simp [bigEnv], by simp [bigEnv], by decide⟩

theorem bigData_len : bigData.length = 9000000 := by unfold bigData; rw [List.length_replicate]

theorem big_short : ∀ p m, Visible bigDemo p m → (archivedPath (baseOf [100]) p m).length ≤ 100 ∧
    ∀ d t, m = .lnk d t → t.length ≤ 100 := by
  intro p n h
  have hb : baseOf [100] = [100] := rfl
  rcases big_cases h with ⟨rfl, rfl⟩ | ⟨rfl, rfl⟩
  · exact ⟨by simp [archivedPath, hb, pathText, bigDemo], fun d t h => by simp [bigDemo] at h⟩
  · exact ⟨by simp [archivedPath, hb, pathText], fun d t h => by simp at h⟩

theorem big_archivable : LegArchivable demoEnv2 bigFs [100] bigDemo := by
  have hb : baseOf [100] = [100] := rfl
  constructor
  · trivial
  · simp [bigDemo, TreeOk, KidsOk, names, NameOk]
  · intro p m o k h
    rcases big_cases h with ⟨_, h⟩ | ⟨_, h⟩
    · simp [bigDemo] at h; exact h.2.1
    · cases h
  · intro p n h
    rcases big_cases h with ⟨rfl, rfl⟩ | ⟨rfl, rfl⟩ <;> simp [bigFs, hb, pathText]
  · decide
  · decide
  · intro p n h; have := (big_short p n h).1; omega
  · intro p m o k h _
    have : p = [] ∨ p = [[97]] := by
      rcases big_cases h with ⟨h, _⟩ | ⟨h, _⟩ <;> simp [h]
    rcases this with rfl | rfl <;> decide
  · intro p m t h
    rcases big_cases h with ⟨_, h⟩ | ⟨_, h⟩ <;> simp [bigDemo] at h
  · intro p n h
    rcases big_cases h with ⟨rfl, rfl⟩ | ⟨rfl, rfl⟩ <;> decide
  · intro p n h _
    have hm : metaOf n = ⟨0, 0, 0, 0⟩ := by
      rcases big_cases h with ⟨rfl, rfl⟩ | ⟨rfl, rfl⟩ <;> rfl
    rw [hm]
    exact ⟨by decide, by decide, by decide, by decide, ⟨[114], rfl, by decide, by decide⟩,
      ⟨[103], rfl, by decide, by decide⟩⟩
  · intro p m c h
    rcases big_cases h with ⟨_, h⟩ | ⟨_, h⟩
    · simp [bigDemo] at h
    · simp only [FNode.reg.injEq] at h
      rw [h.2, bigData_len]; omega
  · exact ⟨[[97]], _, by simp, big_visible, by simp [describe]⟩

/-- Two ranks archive the directory with the large file. -/
theorem big_good (Q : QSort Frag) : ∃ front wss,
    GoodRun bigEnv Q glibcNull [97] [100] (fun _ => (some bigDemo, bigDemo)) [[112], [67], [97], [100]] 2 front wss ∧
    ∀ cat, (512, cat) ∈ front → (cat.length + 1024) % 4194304 ≠ 0 := by
  obtain ⟨front, wss, h⟩ := C48_run_succeeds bigEnv Q glibcNull [100] bigDemo big_platform (by decide) big_archivable
    (some bigDemo) trivial 2 (by omega) big_short (by
      intro os hnd hv
      have hsub : os ⊆ [([], bigDemo), ([[97]], .reg ⟨0, 0, 0, 0⟩ bigData)] := by
        intro o ho
        rcases o with ⟨p, n⟩
        rcases big_cases (hv _ ho) with ⟨h1, h2⟩ | ⟨h1, h2⟩ <;> simp only [] at h1 h2 <;> rw [h1, h2] <;> simp
      have hl := (List.subperm_of_subset hnd hsub).length_le
      have hmul := sum_le_mul (fun o => fileLength o.2 / 4194304 + 2) os 10 (by
        intro o ho
        rcases o with ⟨p, n⟩
        rcases big_cases (hv _ ho) with ⟨_, h2⟩ | ⟨_, h2⟩ <;> simp only [] at h2 <;> rw [h2] <;> simp [fileLength, bigDemo, bigData_len])
      simp only [List.length_cons, List.length_nil] at hl
      omega)
  refine ⟨front, wss, ⟨⟨[112], [], rfl⟩, by decide, big_platform, big_archivable, trivial, by omega, h⟩, ?_⟩
  refine gap_of_few big_platform (by decide) big_archivable (seen := some bigDemo) trivial (n := 2) (by omega) big_short [[], [[97]]] ?_ (by simp) h
  intro p m hv
  rcases big_cases hv with ⟨rfl, _⟩ | ⟨rfl, _⟩ <;> simp

/-- Two ranks archive the directory with the large file: the run can be interrupted so that a new
archive file looks complete and holds nothing of the tree. -/
theorem big_looks_complete (Q : QSort Frag) (eager : Bool) :
    ∃ s, LReach (rankMain bigEnv Q glibcNull (fun _ => (some bigDemo, bigDemo)) [[112], [67], [97], [100]] 2 true) 2 eager [] s ∧
      terminated s.file = true ∧ ∃ cat all, readArchive s.file = some (cat :: all) ∧ cat.path = catalogName ∧
        ∀ m ∈ all, ownMember m = true := by
  obtain ⟨front, wss, hg, hgap⟩ := big_good Q
  exact C55_large_file hg hgap (by omega) big_visible (by rw [bigData_len]; omega) eager

/-- Five ranks archive the small example: the hypotheses of C55 and C56 hold. -/
theorem leg_good (Q : QSort Frag) : ∃ front wss, GoodRun legEnv Q glibcNull [97] [100] (fun _ => (some legDemo, legDemo))
    [[112], [67], [97], [100]] 5 front wss ∧ ∀ cat, (512, cat) ∈ front → (cat.length + 1024) % 4194304 ≠ 0 := by
  obtain ⟨front, wss, h, hgap, _⟩ := leg_demo_run Q
  exact ⟨front, wss, ⟨⟨[112], [], rfl⟩, by decide, leg_platform, leg_archivable, trivial, by omega, h⟩, hgap⟩

/-- All five ranks end with status 0. -/
example (Q : QSort Frag) : AllEnd (rankMain legEnv Q glibcNull (fun _ => (some legDemo, legDemo)) [[112], [67], [97], [100]] 5 true) 5 := by
  obtain ⟨front, wss, h, _⟩ := leg_good Q
  exact (C56_success_partial legEnv Q glibcNull [97] [100] _ _ h.call h.arc 5 h.ranks front wss h.made).1

end Parfu.Props
