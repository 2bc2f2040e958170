/-
Property theorems C80: what is extracted from an archive of parfu 0.5.1 can be archived again, by
either program, with the same members.
-/
import Verif.PropsAgain
set_option autoImplicit false

namespace Parfu.Props
open Parfu MoveSpec TarSpec ScanSpec PlanSpec ProtocolSpec LegacyScanSpec LegacyRunSpec ExtractSpec

/-- `root` is a directory tree as it is in the file system after an extraction that made `w`: what can be
reached below `base` is what was extracted there, every object is of a type tar knows, and all that was
extracted besides are files with parfu's own names next to it. -/
def HoldsLegacy (base : Bytes) (w : World) (root : FNode) : Prop :=
  (∀ p n, Seen root p n → ∃ o, objOf n = some o ∧ w (placeOf base p) = some o) ∧
  (∀ x o, w x = some o → x ∉ [catalogName, spacerName] → ∃ p n, Seen root p n ∧ x = placeOf base p)

/-- No object of the tree is put where one of parfu's own files is. -/
theorem placeOf_not_own {base : Bytes} (h : base ∉ [catalogName, spacerName]) (p : List Bytes) :
    placeOf base p ∉ [catalogName, spacerName] := by
  intro hx
  have h47 : (47:UInt8) ∉ placeOf base p := by
    simp only [List.mem_cons, List.not_mem_nil, or_false] at hx
    rcases hx with hx | hx <;> rw [hx] <;> decide
  unfold placeOf at hx h47
  split at hx
  · exact h hx
  · rename_i hp
    rw [if_neg hp] at h47
    exact h47 (by simp)

/-- The extracted tree holds exactly the visible objects of the tree that was archived. -/
theorem settled_iff {base : Bytes} {w : World} {root root' : FNode} (hname : base ∉ [catalogName, spacerName])
    (hok : TreeOk root) (hok' : TreeOk root') (hw : IsTree base (Visible root) [catalogName, spacerName] w)
    (hr : HoldsLegacy base w root') {env : Env} (m : Member) :
    (∃ p n, Seen root' p n ∧ memberOf env base p n = some m) ↔ ∃ p n, Visible root p n ∧ memberOf env base p n = some m := by
  constructor
  · rintro ⟨p, n', hs, hm⟩
    obtain ⟨o, ho, hwo⟩ := hr.1 p n' hs
    rcases hw.2 _ _ hwo with ⟨q, n, hv, he⟩ | ⟨hin, _⟩
    · have hpq := placeOf_inj (at_nameOk (seen_at hs) hok') (at_nameOk hv.1 hok) he
      subst hpq
      refine ⟨p, n, hv, ?_⟩
      rw [← hm]
      refine memberOf_congr ?_
      rw [← hw.1 p n hv, hwo, ho]
    · exact absurd hin (placeOf_not_own hname p)
  · rintro ⟨p, n, hv, hm⟩
    obtain ⟨o, ho⟩ : ∃ o, objOf n = some o := by
      cases n <;> simp [objOf]
      simp [memberOf] at hm
    have hwo := hw.1 p n hv
    rw [ho] at hwo
    obtain ⟨q, n', hs, he⟩ := hr.2 _ _ hwo (placeOf_not_own hname p)
    have hpq := placeOf_inj (at_nameOk hv.1 hok) (at_nameOk (seen_at hs) hok') he
    subst hpq
    refine ⟨p, n', hs, ?_⟩
    rw [← hm]
    refine memberOf_congr ?_
    obtain ⟨o', ho', hwo'⟩ := hr.1 p n' hs
    rw [hwo] at hwo'
    cases hwo'
    rw [ho, ho']

/-- Nothing in the extracted tree has a name that begins with a dot. -/
theorem settled_visible {base : Bytes} {w : World} {root root' : FNode} (hname : base ∉ [catalogName, spacerName])
    (hok : TreeOk root) (hok' : TreeOk root') (hw : IsTree base (Visible root) [catalogName, spacerName] w)
    (hr : HoldsLegacy base w root') (ho : ∀ p m o k, Visible root' p (.dir m o k) → o = true) (p : List Bytes) (n : FNode) : Visible root' p n ↔ Seen root' p n := by
  rw [visible_iff ho]
  constructor
  · exact fun h => h.1
  · intro hs
    refine ⟨hs, ?_⟩
    obtain ⟨o, ho, hwo⟩ := hr.1 p n hs
    rcases hw.2 _ _ hwo with ⟨q, n, hv, he⟩ | ⟨hin, _⟩
    · have hpq := placeOf_inj (at_nameOk (seen_at hs) hok') (at_nameOk hv.1 hok) he
      subst hpq
      exact hv.2
    · exact absurd hin (placeOf_not_own hname p)

/-- The members of a legacy archive that are not parfu's own are there once each. -/
theorem nodup_of_members {env : Env} {top : Bytes} {root : FNode} {ms : List Member} (h : MembersOf env top root ms) : ms.Nodup :=
  List.Nodup.of_map _ h.2

section
variable {L : LegEnv} {Q : QSort Frag} {nul top : Bytes} {root root' : FNode} {seen : Option FNode} {n : Nat}
variable {front : List WriteReq} {wss : List (List WriteReq)} {here : Bytes → Bool} {ws : List WriteReq} {old : Bytes}

/-- What C46 and C54 say of one archive. -/
theorem legacy_both (hp : Platform L nul) (ha : LegArchivable L.env L.fs top root) (hseen : DirOrLink seen) (hn : 0 < n)
    (h : legacyMain L Q nul top seen root n = .ok (some (front, wss)))
    (hgap : ∀ cat, (512, cat) ∈ front → (cat.length + 1024) % 4194304 ≠ 0)
    (hname : baseOf top ∉ [catalogName, spacerName])
    (hhere : here (dirPart (baseOf top)) = true) (hcwd : here [] = true)
    (hws : ws.Perm (front ++ wss.flatten)) {ms : List Member} {w : World} (hms : readArchive (ws.foldl writeAt old) = some ms)
    (hw : extract here (fun _ => none) ms = some w) :
    MembersOf L.env top root (ms.filter fun m => !ownMember m) ∧
      IsTree (baseOf top) (Visible root) [catalogName, spacerName] w := by
  obtain ⟨cat, all, h1, _, h2, h3, _, h4, _⟩ := C46_archive_partial L Q nul top root hp ha seen hseen n hn front wss h hgap ws hws old
  obtain ⟨ms', w', k1, k2, k3⟩ := C54_legacy_extract_partial L Q nul top root hp ha seen hseen n hn front wss h hgap hname
    here hhere hcwd ws hws old
  rw [hms] at h1 k1
  cases k1
  simp only [Option.some.injEq] at h1
  rw [hw] at k2
  cases k2
  refine ⟨?_, k3⟩
  have hcat : ownMember cat = true := by
    unfold ownMember
    simp only [decide_eq_true_eq]
    exact ⟨h3, Or.inl h2⟩
  rw [h1, List.filter_cons_of_neg (by simp [hcat])]
  exact h4

/-- **C80 (partial)** Extract the archive of a successful run of parfu 0.5.1 in an empty place and
archive what was extracted with parfu 0.5.1 again, with any number of ranks and any order of the writes:
but for parfu's own members the second archive holds exactly the same members.
Missing: what is missing in C46 and C54. -/
theorem C80_legacy_again_partial (hp : Platform L nul) (ha : LegArchivable L.env L.fs top root) (hseen : DirOrLink seen) (hn : 0 < n)
    (h : legacyMain L Q nul top seen root n = .ok (some (front, wss)))
    (hgap : ∀ cat, (512, cat) ∈ front → (cat.length + 1024) % 4194304 ≠ 0)
    (hname : baseOf top ∉ [catalogName, spacerName])
    (hhere : here (dirPart (baseOf top)) = true) (hcwd : here [] = true)
    (hws : ws.Perm (front ++ wss.flatten)) {ms : List Member} {w : World} (hms : readArchive (ws.foldl writeAt old) = some ms)
    (hw : extract here (fun _ => none) ms = some w) (hroot : HoldsLegacy (baseOf top) w root')
    {L' : LegEnv} {Q' : QSort Frag} {nul' top' : Bytes} {seen' : Option FNode} {n' : Nat} {front' : List WriteReq}
    {wss' : List (List WriteReq)} {ws' : List WriteReq} {old' : Bytes} (henv : L'.env = L.env) (htop : baseOf top' = baseOf top)
    (hp' : Platform L' nul') (ha' : LegArchivable L'.env L'.fs top' root') (hseen' : DirOrLink seen') (hn' : 0 < n')
    (h' : legacyMain L' Q' nul' top' seen' root' n' = .ok (some (front', wss')))
    (hgap' : ∀ cat, (512, cat) ∈ front' → (cat.length + 1024) % 4194304 ≠ 0)
    (hws' : ws'.Perm (front' ++ wss'.flatten)) :
    ∃ ms', readArchive (ws'.foldl writeAt old') = some ms' ∧
      (ms'.filter fun m => !ownMember m).Perm (ms.filter fun m => !ownMember m) := by
  obtain ⟨hm, ht⟩ := legacy_both hp ha hseen hn h hgap hname hhere hcwd hws hms hw
  obtain ⟨cat, all, h1, _, h2, h3, _, h4, _⟩ := C46_archive_partial L' Q' nul' top' root' hp' ha' seen' hseen' n' hn' front' wss' h'
    hgap' ws' hws' old'
  have hcat : ownMember cat = true := by
    unfold ownMember
    simp only [decide_eq_true_eq]
    exact ⟨h3, Or.inl h2⟩
  refine ⟨_, h1, ?_⟩
  rw [List.filter_cons_of_neg (by simp [hcat])]
  refine (List.perm_ext_iff_of_nodup (nodup_of_members h4) (nodup_of_members hm)).2 fun m => ?_
  rw [h4.1, hm.1, henv, htop, ← settled_iff hname ha.treeOk ha'.treeOk ht hroot m]
  simp only [settled_visible hname ha.treeOk ha'.treeOk ht hroot ha'.opened]

/-- **C80 (partial)** The same with parfu 0.6 for the second archive, in every run of it that reports
success: it holds exactly the members of the old archive but for parfu's own.
Missing: what is missing in C46 and C54. -/
theorem C80_from_legacy_partial (hp : Platform L nul) (ha : LegArchivable L.env L.fs top root) (hseen : DirOrLink seen) (hn : 0 < n)
    (h : legacyMain L Q nul top seen root n = .ok (some (front, wss)))
    (hgap : ∀ cat, (512, cat) ∈ front → (cat.length + 1024) % 4194304 ≠ 0)
    (hname : baseOf top ∉ [catalogName, spacerName])
    (hhere : here (dirPart (baseOf top)) = true) (hcwd : here [] = true)
    (hws : ws.Perm (front ++ wss.flatten)) {ms : List Member} {w : World} (hms : readArchive (ws.foldl writeAt old) = some ms)
    (hw : extract here (fun _ => none) ms = some w) (hroot : HoldsLegacy (baseOf top) w root')
    {cfg : Cfg} {S : StdSort Ref} {g : Bytes → UInt8} {b mx : Nat} {c : Coll} {bundles : List (List Order)}
    {archive : Bytes} {eager : Bool} {file0 : Option Bytes} {tr : List Ev} {s : Sys} (henv : cfg.env = L.env)
    (j : Job cfg.env cfg.fs (baseOf top) root' S g b mx c bundles) (hl : Launchable cfg b archive)
    (hrun : CreateRun cfg eager b archive (baseOf top) (bundles.map printBundle) file0 tr s) (hb : s.boss = .exit 0) :
    ∃ A ms', s.file = some A ∧ readArchive A = some ms' ∧ ms'.Perm (ms.filter fun m => !ownMember m) := by
  obtain ⟨hm, ht⟩ := legacy_both hp ha hseen hn h hgap hname hhere hcwd hws hms hw
  obtain ⟨A, ms', h1, h2, h3, h4⟩ := members_iff j hl hrun hb
  refine ⟨A, ms', h1, h2, (List.perm_ext_iff_of_nodup h3 (nodup_of_members hm)).2 fun m => ?_⟩
  rw [h4, hm.1, henv, ← settled_iff hname ha.treeOk j.tree.treeOk ht hroot m]

end

/-- The tree of the examples of C75 has no hidden object, so what is extracted from its legacy archive is
that tree again; it is archived again by both programs, and the members are the same. -/
example (Q : QSort Frag) (old old' : Bytes) : ∃ front wss ms w ms' tr s A ms6,
    legacyMain (bothEnv [97]) Q glibcNull [100] (some (bothTree [97])) (bothTree [97]) 2 = .ok (some (front, wss)) ∧
    readArchive ((front ++ wss.flatten).foldl writeAt old) = some ms ∧ extract (fun y => y = []) (fun _ => none) ms = some w ∧
    HoldsLegacy [100] w (bothTree [97]) ∧ readArchive ((front ++ wss.flatten).foldl writeAt old') = some ms' ∧
    (ms'.filter fun m => !ownMember m).Perm (ms.filter fun m => !ownMember m) ∧
    CreateRun (bothCfg [97]) true 102400 [97] [100] ((bothBundles [97]).map printBundle) none tr s ∧
    s.file = some A ∧ readArchive A = some ms6 ∧ ms6.Perm (ms.filter fun m => !ownMember m) := by
  have hx : BothName [97] := .inl rfl
  obtain ⟨⟨tr, s, h, hb⟩, front, wss, h', hgap⟩ := both_runs hx Q
  obtain ⟨ms, w, k1, k2, k3⟩ := C54_legacy_extract_partial (bothEnv [97]) Q glibcNull [100] (bothTree [97]) (both_platform _) (both_leg hx)
    (some (bothTree [97])) trivial 2 (by omega) front wss h' hgap (by decide) (fun y => y = []) (by decide) (by decide) _ (.refl _) old
  have hh : HoldsLegacy [100] w (bothTree [97]) := by
    constructor
    · intro p n hs
      have hv : Visible (bothTree [97]) p n := by
        refine ⟨seen_at hs, ?_⟩
        rcases both_cases (seen_at hs) with ⟨rfl, _⟩ | ⟨rfl, _⟩ | ⟨rfl, _⟩ <;> simp [NoHidden]
      have : ∃ o, objOf n = some o := by
        rcases both_cases (seen_at hs) with ⟨_, rfl⟩ | ⟨_, rfl⟩ | ⟨_, rfl⟩ <;> exact ⟨_, rfl⟩
      obtain ⟨o, ho⟩ := this
      exact ⟨o, ho, by rw [← ho]; exact k3.1 p n hv⟩
    · intro y o hw hy
      rcases k3.2 y o hw with ⟨p, n, hv, he⟩ | ⟨hin, _⟩
      · exact ⟨p, n, ((visible_iff (both_leg hx).opened p n).1 hv).1, he⟩
      · exact absurd hin hy
  obtain ⟨ms', i1, i2⟩ := C80_legacy_again_partial (both_platform [97]) (both_leg hx) (seen := some (bothTree [97])) trivial
    (n := 2) (by omega) h' hgap (by decide) (by decide) (by decide) (.refl _) (old := old) k1 k2 hh (L' := bothEnv [97]) rfl rfl
    (both_platform [97]) (both_leg hx) (seen' := some (bothTree [97])) trivial (n' := 2) (by omega) h' hgap (.refl _) (old' := old')
  obtain ⟨A, ms6, j1, j2, j3⟩ := C80_from_legacy_partial (both_platform [97]) (both_leg hx) (seen := some (bothTree [97])) trivial
    (n := 2) (by omega) h' hgap (by decide) (by decide) (by decide) (.refl _) (old := old) k1 k2 hh (cfg := bothCfg [97]) rfl
    (both_job hx) (both_launchable [97]) h hb
  exact ⟨front, wss, ms, w, ms', tr, s, A, ms6, h', k1, k2, hh, i1, i2, h, j1, j2, j3⟩

end Parfu.Props
