/-
Property theorem C76: archiving, extracting and archiving again changes nothing.
-/
import Verif.PropsBoth
set_option autoImplicit false

namespace Parfu.Props
open Parfu MoveSpec TarSpec ScanSpec PlanSpec ProtocolSpec LegacyScanSpec LegacyRunSpec ExtractSpec

/-- Two objects that are extracted alike become the same member. -/
theorem memberOf_congr {env : Env} {base : Bytes} {p : List Bytes} {n n' : FNode} (h : objOf n = objOf n') :
    memberOf env base p n = memberOf env base p n' := by
  cases n <;> cases n' <;> simp only [objOf, Option.some.injEq, Obj.mk.injEq, reduceCtorEq, false_and, and_true, true_and] at h
  case reg.reg =>
    obtain ⟨h1, h2, h3, h4, h5⟩ := h
    simp only [memberOf, archivedPath, h1, h2, h3, h4, h5]
  case lnk.lnk =>
    obtain ⟨h1, h2, h3, h4, h5⟩ := h
    simp only [memberOf, archivedPath, h1, h2, h3, h4, h5]
  case dir.dir =>
    obtain ⟨h1, h2, h3, h4⟩ := h
    simp only [memberOf, archivedPath, h1, h2, h3, h4]
  all_goals rfl

/-- The members of the archive of a successful run, as a set, and that none is there twice. -/
theorem members_iff {cfg : Cfg} {base : Bytes} {root : FNode} {S : StdSort Ref} {g : Bytes → UInt8}
    {b mx : Nat} {c : Coll} {bundles : List (List Order)} {archive : Bytes} {eager : Bool}
    {file0 : Option Bytes} {tr : List Ev} {s : Sys} (j : Job cfg.env cfg.fs base root S g b mx c bundles)
    (hl : Launchable cfg b archive)
    (h : CreateRun cfg eager b archive base (bundles.map printBundle) file0 tr s) (hb : s.boss = .exit 0) :
    ∃ A ms, s.file = some A ∧ readArchive A = some ms ∧ ms.Nodup ∧
      ∀ m, m ∈ ms ↔ ∃ p n, Seen root p n ∧ memberOf cfg.env base p n = some m := by
  obtain ⟨A, ms, objs, h1, h2, h3, h4, h5, h6⟩ := C19_every_successful_run j hl h hb
  refine ⟨A, ms, h1, h2, ?_, ?_⟩
  · have : (ms.map some).Nodup := by
      rw [h3]
      refine List.Nodup.map_on ?_ (List.Nodup.of_map _ h4)
      rintro ⟨p, k⟩ hx ⟨q, k'⟩ hy he
      have hsx := (h5 p k).1 hx
      have hsy := (h5 q k').1 hy
      have : ∃ m, memberOf cfg.env base p k = some m := by
        have : memberOf cfg.env base p k ∈ ms.map some := by rw [h3]; exact List.mem_map.2 ⟨_, hx, rfl⟩
        obtain ⟨m, _, hm⟩ := List.mem_map.1 this
        exact ⟨m, hm.symm⟩
      obtain ⟨m, hm⟩ := this
      have hm' : memberOf cfg.env base q k' = some m := by rw [← hm]; exact he.symm
      have hr : ∀ q k, Seen root q k → q = [] → IsDir k := by
        rintro q k hq rfl
        rw [seen_functional j.tree.treeOk hq (.self root)]
        exact j.tree.isDir
      have hn1 := at_nameOk (seen_at hsx.1) j.tree.treeOk
      have hn2 := at_nameOk (seen_at hsy.1) j.tree.treeOk
      have e1 := bare_archived (base := base) hn1 (hr _ _ hsx.1)
      have e2 := bare_archived (base := base) hn2 (hr _ _ hsy.1)
      have hpq := placeOf_inj hn1 hn2 (by rw [← e1, ← e2, ← (memberObj_memberOf hm).2, ← (memberObj_memberOf hm').2])
      subst hpq
      rw [seen_functional j.tree.treeOk hsx.1 hsy.1]
    exact List.Nodup.of_map _ this
  · intro m
    have e : m ∈ ms ↔ some m ∈ ms.map some := by simp
    rw [e, h3, List.mem_map]
    constructor
    · rintro ⟨⟨p, k⟩, hx, hm⟩
      exact ⟨p, k, ((h5 p k).1 hx).1, hm⟩
    · rintro ⟨p, k, hs, hm⟩
      refine ⟨(p, k), (h5 p k).2 ⟨hs, ?_⟩, hm⟩
      cases k <;> simp [describe]
      simp [memberOf] at hm

/-- `root` is a directory tree as it is in the file system after an extraction that made `w`: what can be
reached below `base` is what was extracted there, and every object is of a type tar knows. -/
def Holds (base : Bytes) (w : World) (root : FNode) : Prop :=
  (∀ p n, Seen root p n → ∃ o, objOf n = some o ∧ w (placeOf base p) = some o) ∧
  (∀ x o, w x = some o → ∃ p n, Seen root p n ∧ x = placeOf base p)

/-- **C76** Extract the archive of any successful run in an empty place and archive what was extracted
with any other run, with any number of processes, any schedule and any bucket size: the second archive
holds exactly the same members. -/
theorem C76_archive_extract_archive {cfg cfg' : Cfg} {base : Bytes} {root root' : FNode} {S S' : StdSort Ref}
    {g g' : Bytes → UInt8} {b mx b' mx' : Nat} {c c' : Coll} {bundles bundles' : List (List Order)}
    {archive archive' : Bytes} {eager eager' : Bool} {file0 file0' : Option Bytes} {tr tr' : List Ev} {s s' : Sys}
    (j : Job cfg.env cfg.fs base root S g b mx c bundles) (hl : Launchable cfg b archive)
    (h : CreateRun cfg eager b archive base (bundles.map printBundle) file0 tr s) (hb : s.boss = .exit 0)
    (here : Bytes → Bool) (hhere : here (dirPart base) = true)
    {A : Bytes} {ms : List Member} {w : World} (hA : s.file = some A) (hms : readArchive A = some ms)
    (hw : extract here (fun _ => none) ms = some w) (hroot : Holds base w root') (henv : cfg'.env = cfg.env)
    (j' : Job cfg'.env cfg'.fs base root' S' g' b' mx' c' bundles') (hl' : Launchable cfg' b' archive')
    (h' : CreateRun cfg' eager' b' archive' base (bundles'.map printBundle) file0' tr' s') (hb' : s'.boss = .exit 0) :
    ∃ A' ms', s'.file = some A' ∧ readArchive A' = some ms' ∧ ms'.Perm ms := by
  obtain ⟨A1, ms1, h1, h2, h3, h4⟩ := members_iff j hl h hb
  obtain ⟨A', ms', h1', h2', h3', h4'⟩ := members_iff j' hl' h' hb'
  obtain ⟨A2, ms2, w2, k1, k2, k3, k4, k5⟩ := C53_extract_round_trip j hl h hb here hhere
  rw [hA] at h1 k1
  cases h1
  cases k1
  rw [hms] at h2 k2
  cases h2
  cases k2
  rw [hw] at k3
  cases k3
  refine ⟨A', ms', h1', h2', (List.perm_ext_iff_of_nodup h3' h3).2 ?_⟩
  intro m
  rw [h4, h4', henv]
  constructor
  · rintro ⟨p, n', hs, hm⟩
    obtain ⟨o, ho, hwo⟩ := hroot.1 p n' hs
    rcases k5 _ _ hwo with ⟨q, n, hs', he⟩ | ⟨hin, _⟩
    · have hpq := placeOf_inj (at_nameOk (seen_at hs) j'.tree.treeOk) (at_nameOk (seen_at hs') j.tree.treeOk) he
      subst hpq
      refine ⟨p, n, hs', ?_⟩
      rw [← hm]
      refine memberOf_congr ?_
      rw [← k4 p n hs', hwo, ho]
    · simp at hin
  · rintro ⟨p, n, hs, hm⟩
    have hne : ∃ o, objOf n = some o := by
      cases n <;> simp [objOf]
      simp [memberOf] at hm
    obtain ⟨o, ho⟩ := hne
    have hwo := k4 p n hs
    rw [ho] at hwo
    obtain ⟨q, n', hs', he⟩ := hroot.2 _ _ hwo
    have hpq := placeOf_inj (at_nameOk (seen_at hs) j.tree.treeOk) (at_nameOk (seen_at hs') j'.tree.treeOk) he
    subst hpq
    refine ⟨p, n', hs', ?_⟩
    rw [← hm]
    refine memberOf_congr ?_
    obtain ⟨o', ho', hwo'⟩ := hroot.1 p n' hs'
    rw [hwo] at hwo'
    cases hwo'
    rw [ho, ho']

/-- The tree of the examples of C75 contains all types of objects, so what is extracted from its archive
is that tree again; it is archived again, and the members are the same. -/
example (x : Bytes) (hx : BothName x) : ∃ tr s A ms w tr' s' A' ms',
    CreateRun (bothCfg x) true 102400 [97] [100] ((bothBundles x).map printBundle) none tr s ∧
    s.file = some A ∧ readArchive A = some ms ∧ extract (fun y => y = []) (fun _ => none) ms = some w ∧
    Holds [100] w (bothTree x) ∧
    CreateRun (bothCfg x) true 102400 [97] [100] ((bothBundles x).map printBundle) none tr' s' ∧
    s'.file = some A' ∧ readArchive A' = some ms' ∧ ms'.Perm ms := by
  obtain ⟨_, _, tr, s, h, hf⟩ := C19_runs_succeed (both_job hx) (archive := [97]) (both_launchable x) (show 2 ≤ 3 by decide) rfl Run.nil
  rw [List.nil_append] at h
  obtain ⟨A, ms, w, k1, k2, k3, k4, k5⟩ := C53_extract_round_trip (both_job hx) (both_launchable x) h hf.1 (fun y => y = []) (by decide)
  have hh : Holds [100] w (bothTree x) := by
    constructor
    · intro p n hs
      have : ∃ o, objOf n = some o := by
        rcases both_cases (seen_at hs) with ⟨_, rfl⟩ | ⟨_, rfl⟩ | ⟨_, rfl⟩ <;> exact ⟨_, rfl⟩
      obtain ⟨o, ho⟩ := this
      exact ⟨o, ho, by rw [k4 p n hs, ho]⟩
    · intro y o hw
      rcases k5 y o hw with h | ⟨hin, _⟩
      · exact h
      · simp at hin
  obtain ⟨A', ms', i1, i2, i3⟩ := C76_archive_extract_archive (both_job hx) (both_launchable x) h hf.1 (fun y => y = []) (by decide)
    k1 k2 k3 hh rfl (both_job hx) (both_launchable x) h hf.1
  exact ⟨tr, s, A, ms, w, tr, s, A', ms', h, k1, k2, k3, hh, h, i1, i2, i3⟩

end Parfu.Props
