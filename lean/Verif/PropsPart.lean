/-
Property theorems C84: the archive of a directory inside a tree is that part of the archive of the tree.
-/
import Verif.PropsAgain
import Verif.PropsLegacyRun
import Verif.PropsBoth
import Verif.PropsLegacyCrashDemo
set_option autoImplicit false

namespace Parfu.Props
open Parfu MoveSpec TarSpec ScanSpec PlanSpec ProtocolSpec LegacyScanSpec LegacyRunSpec

/-- The name that is given for the directory at path `q` inside `base`. -/
def inside (base : Bytes) (q : List Bytes) : Bytes := base ++ [47] ++ pathText q

/-- The members at or below the directory with this name. -/
def Below (dir : Bytes) (m : Member) : Prop := (dir ++ [47]) <+: m.path

instance (dir : Bytes) (m : Member) : Decidable (Below dir m) := by unfold Below; infer_instance

theorem at_append {t n : FNode} {q r : List Bytes} : At t (q ++ r) n ↔ ∃ k, At t q k ∧ At k r n := by
  induction q generalizing t with
  | nil => exact ⟨fun h => ⟨t, .self t, h⟩, fun ⟨k, h, h'⟩ => by cases h; exact h'⟩
  | cons a q ih =>
    constructor
    · intro h
      cases h with
      | step hc h =>
        obtain ⟨k, h1, h2⟩ := ih.1 h
        exact ⟨k, .step hc h1, h2⟩
    · rintro ⟨k, h, h'⟩
      cases h with
      | step hc h => exact .step hc (ih.2 ⟨k, h, h'⟩)

theorem seen_append {t n : FNode} {q r : List Bytes} : Seen t (q ++ r) n ↔ ∃ k, Seen t q k ∧ Seen k r n := by
  induction q generalizing t with
  | nil => exact ⟨fun h => ⟨t, .self t, h⟩, fun ⟨k, h, h'⟩ => by cases h; exact h'⟩
  | cons a q ih =>
    constructor
    · intro h
      cases h with
      | step hc h =>
        obtain ⟨k, h1, h2⟩ := ih.1 h
        exact ⟨k, .step hc h1, h2⟩
    · rintro ⟨k, h, h'⟩
      cases h with
      | step hc h => exact .step hc (ih.2 ⟨k, h, h'⟩)

/-- A directory's path ends with a slash. -/
def tailOf : FNode → Bytes
  | .dir _ _ _ => [47]
  | _ => []

def flat (p : List Bytes) : Bytes := p.flatMap fun n => 47 :: n

theorem archived_flat (base : Bytes) (p : List Bytes) (n : FNode) (h : p = [] → IsDir n) :
    archivedPath base p n = base ++ flat p ++ tailOf n := by
  unfold flat
  by_cases hp : p = []
  · subst hp
    have := h rfl
    cases n <;> simp [IsDir] at this
    simp [archivedPath, tailOf]
  · rw [flat_pathText p hp]
    cases n <;> simp [archivedPath, tailOf, hp]

theorem inside_flat (base : Bytes) (q : List Bytes) (hq : q ≠ []) : inside base q = base ++ flat q := by
  unfold inside flat
  rw [flat_pathText q hq]
  simp

theorem head_split {a c x y : Bytes} (ha : (47:UInt8) ∉ a) (hc : (47:UInt8) ∉ c) (hy : y = [] ∨ ∃ y', y = 47 :: y')
    (h : (a ++ 47 :: x) <+: (c ++ y)) : a = c ∧ (47 :: x) <+: y := by
  obtain ⟨z, hz⟩ := h
  rw [List.append_assoc] at hz
  rcases List.append_eq_append_iff.1 hz with ⟨u, h1, h2⟩ | ⟨u, h1, h2⟩
  · cases u with
    | nil => exact ⟨by simpa using h1.symm, ⟨z, by simpa using h2⟩⟩
    | cons b u =>
      have : b = 47 := by simpa using (congrArg List.head? h2).symm
      subst this
      exact absurd (by rw [h1]; simp) hc
  · cases u with
    | nil => exact ⟨by simpa using h1, ⟨z, by simpa using h2.symm⟩⟩
    | cons b u =>
      rcases hy with rfl | ⟨y', rfl⟩
      · simp at h2
      · have : b = 47 := by simpa using (congrArg List.head? h2).symm
        subst this
        exact absurd (by rw [h1]; simp) ha

theorem flat_head (p : List Bytes) (n : FNode) : flat p ++ tailOf n = [] ∨ ∃ y, flat p ++ tailOf n = 47 :: y := by
  cases p with
  | cons a p => exact Or.inr ⟨_, rfl⟩
  | nil => cases n <;> simp [flat, tailOf]

theorem prefix_of_flat {q p : List Bytes} {n : FNode} (hq : ∀ x ∈ q, NameOk x) (hp : ∀ x ∈ p, NameOk x)
    (h : (flat q ++ [47]) <+: (flat p ++ tailOf n)) : ∃ r, p = q ++ r := by
  induction q generalizing p with
  | nil => exact ⟨p, rfl⟩
  | cons a q ih =>
    have ha := hq a (by simp)
    cases p with
    | nil =>
      exfalso
      have hl := h.length_le
      have : 0 < a.length := List.length_pos_iff.2 ha.1
      cases n <;> simp [flat, tailOf] at hl
    | cons c p =>
      have hc := hp c (by simp)
      have h' : (a ++ (flat q ++ [47])) <+: (c ++ (flat p ++ tailOf n)) := by
        simpa [flat, List.cons_prefix_cons] using h
      obtain ⟨x, hx⟩ : ∃ x, flat q ++ [47] = 47 :: x := by
        cases q with
        | nil => exact ⟨[], rfl⟩
        | cons b q => exact ⟨_, rfl⟩
      rw [hx] at h'
      obtain ⟨h1, h2⟩ := head_split ha.2.1 hc.2.1 (flat_head p n) h'
      rw [← hx] at h2
      obtain ⟨r, hr⟩ := ih (fun x hx => hq x (by simp [hx])) (fun x hx => hp x (by simp [hx])) h2
      exact ⟨r, by rw [h1, hr]; rfl⟩

theorem memberOf_part {env : Env} {base : Bytes} {q r : List Bytes} {n : FNode} (hq : q ≠ []) (h : r = [] → IsDir n) :
    memberOf env (inside base q) r n = memberOf env base (q ++ r) n := by
  have : archivedPath (inside base q) r n = archivedPath base (q ++ r) n := by
    rw [archived_flat _ _ _ h, archived_flat _ _ _ (fun e => absurd (List.append_eq_nil_iff.1 e).1 hq), inside_flat _ _ hq]
    simp [flat, List.flatMap_append]
  unfold memberOf
  rw [this]

theorem memberOf_path {env : Env} {base : Bytes} {p : List Bytes} {n : FNode} {m : Member} (h : memberOf env base p n = some m) :
    m.path = archivedPath base p n := by
  unfold memberOf at h
  cases n <;> simp only [] at h
  case other => cases h
  all_goals (split at h <;> cases h; rfl)

/-- The members below a directory are those of the objects of the tree that is there. -/
theorem below_iff {env : Env} {base : Bytes} {root sub : FNode} {q : List Bytes} (ok : TreeOk root) (hdir : IsDir root)
    (Sel Sel' : List Bytes → FNode → Prop) (hsel : ∀ p n, Sel p n → At root p n)
    (hsub : At root q sub) (hsd : IsDir sub) (hq : q ≠ []) (hpart : ∀ r n, Sel (q ++ r) n ↔ Sel' r n)
    (hroot' : ∀ n, Sel' [] n → n = sub) (m : Member) :
    (∃ p n, Sel' p n ∧ memberOf env (inside base q) p n = some m) ↔
    (∃ p n, Sel p n ∧ memberOf env base p n = some m) ∧ Below (inside base q) m := by
  have hd : ∀ r n, Sel' r n → r = [] → IsDir n := by
    rintro r n h rfl
    rw [hroot' n h]; exact hsd
  constructor
  · rintro ⟨r, n, h, hm⟩
    have hm' := hm
    rw [memberOf_part hq (hd r n h)] at hm
    refine ⟨⟨q ++ r, n, (hpart r n).2 h, hm⟩, ?_⟩
    unfold Below
    rw [memberOf_path hm', archived_flat _ _ _ (hd r n h), List.append_assoc, List.prefix_append_right_inj]
    by_cases hr : r = []
    · have := hd r n h hr
      cases n <;> simp [IsDir] at this
      subst hr
      exact ⟨[], rfl⟩
    · obtain ⟨a, r', rfl⟩ := List.exists_cons_of_ne_nil hr
      exact ⟨a ++ flat r' ++ tailOf n, by simp [flat]⟩
  · rintro ⟨⟨p, n, h, hm⟩, hb⟩
    have hp0 : p = [] → IsDir n := by
      rintro rfl
      have := at_functional ok (hsel _ _ h) (.self root)
      rw [this]; exact hdir
    unfold Below at hb
    rw [memberOf_path hm, archived_flat _ _ _ hp0, inside_flat _ _ hq, List.append_assoc, List.append_assoc,
      List.prefix_append_right_inj] at hb
    obtain ⟨r, rfl⟩ := prefix_of_flat (at_nameOk hsub ok) (at_nameOk (hsel _ _ h) ok) hb
    have h' := (hpart r n).1 h
    refine ⟨r, n, h', ?_⟩
    rw [memberOf_part hq (hd r n h')]
    exact hm

/-- **C84** (0.6) Two successful runs, one on a directory and one on a directory `sub` somewhere inside it: the
archive of `sub` holds exactly those members of the other archive that are at or below `sub`, each once. -/
theorem C84_part {cfg cfg' : Cfg} {base : Bytes} {root sub : FNode} {S S' : StdSort Ref} {g g' : Bytes → UInt8} {b mx b' mx' : Nat}
    {c c' : Coll} {bundles bundles' : List (List Order)} {archive archive' : Bytes} {eager eager' : Bool} {file0 file0' : Option Bytes}
    {tr tr' : List Ev} {s s' : Sys} {q : List Bytes} (he : cfg'.env = cfg.env)
    (j : Job cfg.env cfg.fs base root S g b mx c bundles) (hl : Launchable cfg b archive)
    (h : CreateRun cfg eager b archive base (bundles.map printBundle) file0 tr s) (hb : s.boss = .exit 0)
    (hsub : Seen root q sub) (hq : q ≠ [])
    (j' : Job cfg'.env cfg'.fs (inside base q) sub S' g' b' mx' c' bundles') (hl' : Launchable cfg' b' archive')
    (h' : CreateRun cfg' eager' b' archive' (inside base q) (bundles'.map printBundle) file0' tr' s') (hb' : s'.boss = .exit 0) :
    ∃ A ms A' ms', s.file = some A ∧ readArchive A = some ms ∧ s'.file = some A' ∧ readArchive A' = some ms' ∧
      ms'.Perm (ms.filter fun m => decide (Below (inside base q) m)) := by
  obtain ⟨A, ms, h1, h2, h3, h4⟩ := members_iff j hl h hb
  obtain ⟨A', ms', h1', h2', h3', h4'⟩ := members_iff j' hl' h' hb'
  refine ⟨A, ms, A', ms', h1, h2, h1', h2', (List.perm_ext_iff_of_nodup h3' (h3.filter _)).2 ?_⟩
  intro m
  rw [List.mem_filter, decide_eq_true_iff, h4, h4', he]
  refine below_iff j.tree.treeOk j.tree.isDir (Seen root) (Seen sub) (fun p n h => seen_at h) (seen_at hsub) j'.tree.isDir hq ?_ ?_ m
  · intro r n
    rw [seen_append]
    exact ⟨fun ⟨k, h1, h2⟩ => by rw [← seen_functional j.tree.treeOk h1 hsub]; exact h2, fun h => ⟨sub, hsub, h⟩⟩
  · intro n h
    cases h; rfl

/-- **C84** (0.5.1) The same for two runs of parfu 0.5.1, if the inner directory is not hidden: leaving out
what parfu adds of its own, the archive of the inner directory holds exactly the members of the other
archive that are at or below it. -/
theorem C84_legacy_part (L L' : LegEnv) (Q Q' : QSort Frag) (nul nul' top top' : Bytes) (root sub : FNode) (q : List Bytes)
    (he : L'.env = L.env) (hp : Platform L nul) (hp' : Platform L' nul')
    (ha : LegArchivable L.env L.fs top root) (ha' : LegArchivable L'.env L'.fs top' sub)
    (seen seen' : Option FNode) (hseen : DirOrLink seen) (hseen' : DirOrLink seen') (n n' : Nat) (hn : 0 < n) (hn' : 0 < n')
    (front front' : List WriteReq) (wss wss' : List (List WriteReq))
    (h : legacyMain L Q nul top seen root n = .ok (some (front, wss)))
    (h' : legacyMain L' Q' nul' top' seen' sub n' = .ok (some (front', wss')))
    (hgap : ∀ cat, (512, cat) ∈ front → (cat.length + 1024) % 4194304 ≠ 0)
    (hgap' : ∀ cat, (512, cat) ∈ front' → (cat.length + 1024) % 4194304 ≠ 0)
    (ws ws' : List WriteReq) (hws : ws.Perm (front ++ wss.flatten)) (hws' : ws'.Perm (front' ++ wss'.flatten)) (old old' : Bytes)
    (hsub : Visible root q sub) (hq : q ≠ []) (hb : baseOf top' = inside (baseOf top) q) :
    ∃ cat all cat' all', readArchive (ws.foldl writeAt old) = some (cat :: all) ∧
      readArchive (ws'.foldl writeAt old') = some (cat' :: all') ∧
      (all'.filter fun m => !ownMember m).Perm
        ((all.filter fun m => !ownMember m).filter fun m => decide (Below (inside (baseOf top) q) m)) := by
  obtain ⟨cat, all, h1, _, _, _, _, hm, _⟩ := C46_archive_partial L Q nul top root hp ha seen hseen n hn front wss h hgap ws hws old
  obtain ⟨cat', all', h1', _, _, _, _, hm', _⟩ := C46_archive_partial L' Q' nul' top' sub hp' ha' seen' hseen' n' hn' front' wss' h' hgap' ws' hws' old'
  refine ⟨cat, all, cat', all', h1, h1', (List.perm_ext_iff_of_nodup (List.Nodup.of_map _ hm'.2) ((List.Nodup.of_map _ hm.2).filter _)).2 ?_⟩
  intro m
  rw [hm'.1, List.mem_filter, decide_eq_true_iff, hm.1, he, hb]
  refine below_iff ha.treeOk ha.isDir (Visible root) (Visible sub) (fun p n h => h.1) hsub.1 ha'.isDir hq ?_ ?_ m
  · intro r n
    unfold Visible
    rw [at_append]
    constructor
    · rintro ⟨⟨k, h1, h2⟩, h3⟩
      rw [← at_functional ha.treeOk h1 hsub.1]
      exact ⟨h2, fun x hx => h3 x (List.mem_append_right _ hx)⟩
    · rintro ⟨h1, h2⟩
      refine ⟨⟨sub, hsub.1, h1⟩, fun x hx => ?_⟩
      rcases List.mem_append.1 hx with hx | hx
      · exact hsub.2 x hx
      · exact h2 x hx
  · rintro n ⟨h, _⟩
    cases h; rfl

/-! ### An example: the directory `d` with a file `b` and a directory `s`, in which is a file `a` -/

def partSub : FNode := .dir ⟨420, 0, 0, 0⟩ true (.cons [97] (.reg ⟨420, 0, 0, 0⟩ [1, 2]) .nil)
def partTree : FNode := .dir ⟨420, 0, 0, 0⟩ true (.cons [115] partSub (.cons [98] (.reg ⟨420, 0, 0, 0⟩ [3]) .nil))

def partFs : FS := fun path =>
  if path = [100, 47] then some partTree
  else if path = [100, 47, 115] ∨ path = [100, 47, 115, 47] then some partSub
  else if path = [100, 47, 98] then some (.reg ⟨420, 0, 0, 0⟩ [3])
  else if path = [100, 47, 115, 47, 97] then some (.reg ⟨420, 0, 0, 0⟩ [1, 2]) else none

theorem sub_cases {p : List Bytes} {n : FNode} (h : At partSub p n) :
    (p = [] ∧ n = partSub) ∨ (p = [[97]] ∧ n = .reg ⟨420, 0, 0, 0⟩ [1, 2]) := by
  unfold partSub at h
  cases h with
  | self => simp [partSub]
  | step hc h' =>
    cases hc with
    | here => cases h'; simp
    | there hc => cases hc

theorem part_cases {p : List Bytes} {n : FNode} (h : At partTree p n) :
    (p = [] ∧ n = partTree) ∨ (p = [[115]] ∧ n = partSub) ∨ (p = [[115], [97]] ∧ n = .reg ⟨420, 0, 0, 0⟩ [1, 2]) ∨
    (p = [[98]] ∧ n = .reg ⟨420, 0, 0, 0⟩ [3]) := by
  unfold partTree at h
  cases h with
  | self => simp [partTree]
  | step hc h' =>
    cases hc with
    | here => rcases sub_cases h' with ⟨rfl, rfl⟩ | ⟨rfl, rfl⟩ <;> simp
    | there hc =>
    cases hc with
    | here => cases h'; simp
    | there hc => cases hc

theorem part_owner {n : FNode} (h : metaOf n = ⟨420, 0, 0, 0⟩) : MetaOk demoEnv2 (metaOf n) := by
  rw [h]
  exact ⟨by decide, by decide, by decide, by decide, ⟨[114], rfl, by decide, by decide⟩, ⟨[103], rfl, by decide, by decide⟩⟩

def partC : Coll :=
  { dirs := [⟨-12, ⟨[], .dir, [], 0⟩, 512⟩, ⟨-12, ⟨[115], .dir, [], 0⟩, 512⟩],
    files := [⟨1, ⟨[98], .reg, [], 1⟩, 512⟩, ⟨2, ⟨[115, 47, 97], .reg, [], 2⟩, 512⟩] }
def partBundles : List (List Order) :=
  [[⟨0, [], .dir, [], 0, 512, 0, 0⟩, ⟨0, [115], .dir, [], 0, 512, 512, 0⟩, ⟨0, [98], .reg, [], 1, 512, 1024, 0⟩,
    ⟨0, [115, 47, 97], .reg, [], 2, 512, 2048, 0⟩]]
def subC : Coll := { dirs := [⟨-12, ⟨[], .dir, [], 0⟩, 512⟩], files := [⟨2, ⟨[97], .reg, [], 2⟩, 512⟩] }
def subBundles : List (List Order) := [[⟨0, [], .dir, [], 0, 512, 0, 0⟩, ⟨0, [97], .reg, [], 2, 512, 512, 0⟩]]

def partCfg : Cfg := ⟨3, demoEnv2, partFs, true⟩

theorem part_job : Job partCfg.env partCfg.fs [100] partTree demoSort2 (fun _ => 0) 102400 10 partC partBundles := by
  constructor
  · refine ⟨⟨trivial, ?_, ?_, ?_, ?_, ?_, ?_, ?_, ?_⟩, ?_⟩
    · simp [partTree, partSub, TreeOk, KidsOk, names, NameOk]
    · intro p n h; rcases part_cases (seen_at h) with ⟨rfl, rfl⟩ | ⟨rfl, rfl⟩ | ⟨rfl, rfl⟩ | ⟨rfl, rfl⟩ <;> rfl
    · decide
    · decide
    · intro p n h; rcases part_cases (seen_at h) with ⟨rfl, rfl⟩ | ⟨rfl, rfl⟩ | ⟨rfl, rfl⟩ | ⟨rfl, rfl⟩ <;> decide
    · intro p m t h; rcases part_cases (seen_at h) with ⟨_, h⟩ | ⟨_, h⟩ | ⟨_, h⟩ | ⟨_, h⟩ <;> simp [partTree, partSub] at h
    · intro p n h; rcases part_cases (seen_at h) with ⟨rfl, rfl⟩ | ⟨rfl, rfl⟩ | ⟨rfl, rfl⟩ | ⟨rfl, rfl⟩ <;> decide
    · intro p n h _; exact part_owner (by rcases part_cases (seen_at h) with ⟨rfl, rfl⟩ | ⟨rfl, rfl⟩ | ⟨rfl, rfl⟩ | ⟨rfl, rfl⟩ <;> rfl)
    · intro p m o k h hp; rcases part_cases (seen_at h) with ⟨rfl, _⟩ | ⟨rfl, _⟩ | ⟨rfl, _⟩ | ⟨rfl, _⟩ <;> decide
  · intro _; rfl
  · decide
  all_goals decide +kernel

theorem sub_job : Job partCfg.env partCfg.fs (inside [100] [[115]]) partSub demoSort2 (fun _ => 0) 102400 10 subC subBundles := by
  constructor
  · refine ⟨⟨trivial, ?_, ?_, ?_, ?_, ?_, ?_, ?_, ?_⟩, ?_⟩
    · simp [partSub, TreeOk, KidsOk, names, NameOk]
    · intro p n h; rcases sub_cases (seen_at h) with ⟨rfl, rfl⟩ | ⟨rfl, rfl⟩ <;> rfl
    · decide
    · decide
    · intro p n h; rcases sub_cases (seen_at h) with ⟨rfl, rfl⟩ | ⟨rfl, rfl⟩ <;> decide
    · intro p m t h; rcases sub_cases (seen_at h) with ⟨_, h⟩ | ⟨_, h⟩ <;> simp [partSub] at h
    · intro p n h; rcases sub_cases (seen_at h) with ⟨rfl, rfl⟩ | ⟨rfl, rfl⟩ <;> decide
    · intro p n h _; exact part_owner (by rcases sub_cases (seen_at h) with ⟨rfl, rfl⟩ | ⟨rfl, rfl⟩ <;> rfl)
    · intro p m o k h hp; rcases sub_cases (seen_at h) with ⟨rfl, _⟩ | ⟨rfl, _⟩ <;> decide
  · intro _; rfl
  · decide
  all_goals decide +kernel

theorem part_launchable : Launchable partCfg 102400 [97] := by
  have h3 : partCfg.ranks = 3 := rfl
  constructor <;> first | decide | (rw [h3]; decide)

theorem sub_seen : Seen partTree [[115]] partSub := .step (.here (by decide) (by decide)) (.self _)

/-- Both directories are archived by 0.6. -/
example : ∃ tr s tr' s', CreateRun partCfg true 102400 [97] [100] (partBundles.map printBundle) none tr s ∧ s.boss = .exit 0 ∧
    CreateRun partCfg true 102400 [97] (inside [100] [[115]]) (subBundles.map printBundle) none tr' s' ∧ s'.boss = .exit 0 ∧
    ∃ A ms A' ms', s.file = some A ∧ readArchive A = some ms ∧ s'.file = some A' ∧ readArchive A' = some ms' ∧
      ms'.Perm (ms.filter fun m => decide (Below [100, 47, 115] m)) := by
  obtain ⟨_, _, tr, s, h, hf⟩ := C19_runs_succeed part_job (archive := [97]) part_launchable (show 2 ≤ 3 by decide) rfl Run.nil
  obtain ⟨_, _, tr', s', h', hf'⟩ := C19_runs_succeed sub_job (archive := [97]) part_launchable (show 2 ≤ 3 by decide) rfl Run.nil
  rw [List.nil_append] at h h'
  exact ⟨tr, s, tr', s', h, hf.1, h', hf'.1,
    C84_part rfl part_job part_launchable h hf.1 sub_seen (by decide) sub_job part_launchable h' hf'.1⟩

/-! The same with 0.5.1. -/

def partEnv : LegEnv := ⟨demoEnv2, partFs, false, fun _ => 1700000000, 1700000000, 1700000000⟩

theorem part_platform : Platform partEnv glibcNull :=
  ⟨rfl, fun _ => by simp [partEnv], by simp [partEnv], by simp [partEnv], by decide⟩

theorem part_leg : LegArchivable demoEnv2 partFs [100] partTree := by
  constructor
  · trivial
  · exact part_job.tree.treeOk
  · intro p m o k h; rcases part_cases h.1 with ⟨_, h⟩ | ⟨_, h⟩ | ⟨_, h⟩ | ⟨_, h⟩ <;> simp [partTree, partSub] at h <;> exact h.2.1
  · intro p n h; rcases part_cases h.1 with ⟨rfl, rfl⟩ | ⟨rfl, rfl⟩ | ⟨rfl, rfl⟩ | ⟨rfl, rfl⟩ <;> rfl
  · decide
  · decide
  · intro p n h; rcases part_cases h.1 with ⟨rfl, rfl⟩ | ⟨rfl, rfl⟩ | ⟨rfl, rfl⟩ | ⟨rfl, rfl⟩ <;> decide
  · intro p m o k h hp; rcases part_cases h.1 with ⟨rfl, _⟩ | ⟨rfl, _⟩ | ⟨rfl, _⟩ | ⟨rfl, _⟩ <;> decide
  · intro p m t h; rcases part_cases h.1 with ⟨_, h⟩ | ⟨_, h⟩ | ⟨_, h⟩ | ⟨_, h⟩ <;> simp [partTree, partSub] at h
  · intro p n h; rcases part_cases h.1 with ⟨rfl, rfl⟩ | ⟨rfl, rfl⟩ | ⟨rfl, rfl⟩ | ⟨rfl, rfl⟩ <;> decide
  · intro p n h _; exact part_owner (by rcases part_cases h.1 with ⟨rfl, rfl⟩ | ⟨rfl, rfl⟩ | ⟨rfl, rfl⟩ | ⟨rfl, rfl⟩ <;> rfl)
  · intro p m c h
    rcases part_cases h.1 with ⟨_, h⟩ | ⟨_, h⟩ | ⟨_, h⟩ | ⟨_, h⟩ <;> simp [partTree, partSub] at h <;> (obtain ⟨_, rfl⟩ := h; simp)
  · exact ⟨[[115]], partSub, by simp, ⟨.step (.here (by decide) (by decide)) (.self _), by simp [NoHidden]⟩, by simp [describe, partSub]⟩

theorem sub_leg : LegArchivable demoEnv2 partFs [100, 47, 115] partSub := by
  constructor
  · trivial
  · exact sub_job.tree.treeOk
  · intro p m o k h; rcases sub_cases h.1 with ⟨_, h⟩ | ⟨_, h⟩ <;> simp [partSub] at h; exact h.2.1
  · intro p n h; rcases sub_cases h.1 with ⟨rfl, rfl⟩ | ⟨rfl, rfl⟩ <;> rfl
  · decide
  · decide
  · intro p n h; rcases sub_cases h.1 with ⟨rfl, rfl⟩ | ⟨rfl, rfl⟩ <;> decide
  · intro p m o k h hp; rcases sub_cases h.1 with ⟨rfl, _⟩ | ⟨rfl, _⟩ <;> decide
  · intro p m t h; rcases sub_cases h.1 with ⟨_, h⟩ | ⟨_, h⟩ <;> simp [partSub] at h
  · intro p n h; rcases sub_cases h.1 with ⟨rfl, rfl⟩ | ⟨rfl, rfl⟩ <;> decide
  · intro p n h _; exact part_owner (by rcases sub_cases h.1 with ⟨rfl, rfl⟩ | ⟨rfl, rfl⟩ <;> rfl)
  · intro p m c h
    rcases sub_cases h.1 with ⟨_, h⟩ | ⟨_, h⟩ <;> simp [partSub] at h
    obtain ⟨_, rfl⟩ := h
    simp
  · exact ⟨[[97]], .reg ⟨420, 0, 0, 0⟩ [1, 2], by simp, ⟨.step (.here (by decide) (by decide)) (.self _), by simp [NoHidden]⟩, by simp [describe]⟩

theorem part_short : ∀ p m, Visible partTree p m → (archivedPath (baseOf [100]) p m).length ≤ 100 ∧
    ∀ d t, m = .lnk d t → t.length ≤ 100 := by
  intro p n h
  rcases part_cases h.1 with ⟨rfl, rfl⟩ | ⟨rfl, rfl⟩ | ⟨rfl, rfl⟩ | ⟨rfl, rfl⟩ <;> exact ⟨by decide, by simp [partTree, partSub]⟩

theorem sub_short : ∀ p m, Visible partSub p m → (archivedPath (baseOf [100, 47, 115]) p m).length ≤ 100 ∧
    ∀ d t, m = .lnk d t → t.length ≤ 100 := by
  intro p n h
  rcases sub_cases h.1 with ⟨rfl, rfl⟩ | ⟨rfl, rfl⟩ <;> exact ⟨by decide, by simp [partSub]⟩

theorem part_small : ∀ p n, At partTree p n → fileLength n ≤ 2 := by
  intro p n h
  rcases part_cases h with ⟨rfl, rfl⟩ | ⟨rfl, rfl⟩ | ⟨rfl, rfl⟩ | ⟨rfl, rfl⟩ <;> simp [fileLength, partTree, partSub]

theorem sub_small : ∀ p n, At partSub p n → fileLength n ≤ 2 := by
  intro p n h
  rcases sub_cases h with ⟨rfl, rfl⟩ | ⟨rfl, rfl⟩ <;> simp [fileLength, partSub]

theorem few_run (Q : QSort Frag) {top : Bytes} {root : FNode} (ha : LegArchivable demoEnv2 partFs top root)
    (hs : ∀ p m, Visible root p m → (archivedPath (baseOf top) p m).length ≤ 100 ∧ ∀ d t, m = .lnk d t → t.length ≤ 100)
    (hsm : ∀ p n, At root p n → fileLength n ≤ 2) (ps : List (List Bytes)) (hps : ∀ p n, At root p n → p ∈ ps) (hl : ps.length ≤ 4)
    (h0 : [] ∈ ps) :
    ∃ front wss, legacyMain partEnv Q glibcNull top (some root) root 2 = .ok (some (front, wss)) ∧
      ∀ cat, (512, cat) ∈ front → (cat.length + 1024) % 4194304 ≠ 0 := by
  have hd : DirOrLink (some root) := by
    have := ha.isDir
    cases root <;> simp [IsDir] at this
    trivial
  obtain ⟨front, wss, h⟩ := C48_run_succeeds partEnv Q glibcNull top root part_platform (by decide) ha
    (some root) hd 2 (by omega) hs (by
      intro os hnd hv
      have hmap : (os.map Prod.fst).Nodup := by
        refine List.Nodup.map_on ?_ hnd
        rintro ⟨p, n⟩ hx ⟨q, n'⟩ hy he
        simp only [] at he
        subst he
        have : n = n' := at_functional ha.treeOk (hv _ hx).1 (hv _ hy).1
        rw [this]
      have hle := (List.subperm_of_subset hmap (l₂ := ps) (fun p hp => by
        obtain ⟨x, hx, rfl⟩ := List.mem_map.1 hp
        exact hps _ _ (hv x hx).1)).length_le
      rw [List.length_map] at hle
      have := sum_le_mul (fun o : List Bytes × FNode => fileLength o.2 / 4194304 + 2) os 2 (by
        intro o ho
        have := hsm _ _ (hv o ho).1
        show fileLength o.2 / 4194304 + 2 ≤ 2
        omega)
      omega)
  exact ⟨front, wss, h, gap_of_few part_platform (by decide) ha (seen := some root) hd (n := 2) (by omega) hs ps (fun p m hv => hps p m hv.1) (by omega) h⟩

/-- Both directories are archived by 0.5.1. -/
example (Q : QSort Frag) : ∃ front wss front' wss',
    legacyMain partEnv Q glibcNull [100] (some partTree) partTree 2 = .ok (some (front, wss)) ∧
    legacyMain partEnv Q glibcNull [100, 47, 115] (some partSub) partSub 2 = .ok (some (front', wss')) ∧
    ∃ cat all cat' all', readArchive ((front ++ wss.flatten).foldl writeAt []) = some (cat :: all) ∧
      readArchive ((front' ++ wss'.flatten).foldl writeAt []) = some (cat' :: all') ∧
      (all'.filter fun m => !ownMember m).Perm
        ((all.filter fun m => !ownMember m).filter fun m => decide (Below [100, 47, 115] m)) := by
  obtain ⟨front, wss, h, g⟩ := few_run Q part_leg part_short part_small [[], [[115]], [[115], [97]], [[98]]] (by
    intro p n h; rcases part_cases h with ⟨rfl, _⟩ | ⟨rfl, _⟩ | ⟨rfl, _⟩ | ⟨rfl, _⟩ <;> simp) (by simp) (by simp)
  obtain ⟨front', wss', h', g'⟩ := few_run Q sub_leg sub_short sub_small [[], [[97]]] (by
    intro p n h; rcases sub_cases h with ⟨rfl, _⟩ | ⟨rfl, _⟩ <;> simp) (by simp) (by simp)
  exact ⟨front, wss, front', wss', h, h', C84_legacy_part partEnv partEnv Q Q glibcNull glibcNull [100] [100, 47, 115] partTree partSub [[115]] rfl
    part_platform part_platform part_leg sub_leg (some partTree) (some partSub) trivial trivial 2 2 (by omega) (by omega) front front' wss wss' h h' g g'
    _ _ (List.Perm.refl _) (List.Perm.refl _) [] [] ⟨.step (.here (by decide) (by decide)) (.self _), by simp [NoHidden]⟩ (by decide) (by decide)⟩

end Parfu.Props
