/-
Property theorem C75: parfu 0.6 and parfu 0.5.1 put the same members into their archives.
-/
import Verif.PropsExtract
set_option autoImplicit false

namespace Parfu.Props
open Parfu MoveSpec TarSpec ScanSpec PlanSpec ProtocolSpec LegacyScanSpec LegacyRunSpec ExtractSpec

/-- Behind the place where the tree is put, the path holds a name that begins with a dot. -/
def DotName (base path : Bytes) : Prop := [47, 46] <:+: path.drop base.length

theorem infix_skip {n r : Bytes} (h : (47:UInt8) ∉ n) : [47, 46] <:+: n ++ r ↔ [47, 46] <:+: r := by
  induction n with
  | nil => simp
  | cons a n ih =>
    simp only [List.mem_cons, not_or] at h
    rw [List.cons_append, List.infix_cons_iff, ih h.2]
    constructor
    · rintro (hp | hp)
      · rw [List.cons_prefix_cons] at hp
        exact absurd hp.1 h.1
      · exact hp
    · exact Or.inr

theorem infix_names (tail : Bytes) (ht : tail = [] ∨ tail = [47]) (p : List Bytes) (hp : ∀ n ∈ p, NameOk n) :
    [47, 46] <:+: p.flatMap (fun n => 47 :: n) ++ tail ↔ ∃ n ∈ p, n.head? = some 46 := by
  induction p with
  | nil => rcases ht with rfl | rfl <;> simp [List.infix_cons_iff]
  | cons a p ih =>
    have ha := hp a (by simp)
    rw [List.flatMap_cons, List.append_assoc, List.cons_append, List.infix_cons_iff, infix_skip ha.2.1,
      ih (fun n hn => hp n (by simp [hn]))]
    obtain ⟨x, a', rfl⟩ := List.exists_cons_of_ne_nil ha.1
    simp [List.cons_prefix_cons, eq_comm]

theorem flat_pathText (p : List Bytes) (hp : p ≠ []) : p.flatMap (fun n => 47 :: n) = 47 :: pathText p := by
  induction p with
  | nil => exact absurd rfl hp
  | cons a p ih =>
    cases p with
    | nil => simp [pathText]
    | cons b r =>
      rw [List.flatMap_cons, ih (by simp)]
      simp [pathText]

theorem dotName_iff {base : Bytes} {p : List Bytes} {n : FNode} (hp : ∀ a ∈ p, NameOk a) :
    ¬ DotName base (archivedPath base p n) ↔ NoHidden p := by
  have key : ∃ tail, (tail = [] ∨ tail = [47]) ∧ (archivedPath base p n).drop base.length = (p.flatMap (fun n => 47 :: n)) ++ tail := by
    by_cases h : p = []
    · subst h
      refine ⟨[47], Or.inr rfl, ?_⟩
      cases n <;> simp [archivedPath, pathText]
    · rw [flat_pathText p h]
      cases n
      case dir => exact ⟨[47], Or.inr rfl, by simp [archivedPath, h]⟩
      all_goals exact ⟨[], Or.inl rfl, by simp [archivedPath]⟩
  obtain ⟨tail, ht, hk⟩ := key
  unfold DotName
  rw [hk, infix_names tail ht p hp]
  simp [NoHidden]

/-- What is visible to 0.5.1 is what 0.6 gets to see behind no dot-name. -/
theorem visible_iff {root : FNode} (ho : ∀ p m o k, Visible root p (.dir m o k) → o = true) (p : List Bytes) (n : FNode) :
    Visible root p n ↔ Seen root p n ∧ NoHidden p := by
  constructor
  · rintro ⟨h, hh⟩
    refine ⟨?_, hh⟩
    induction h with
    | self => exact .self _
    | @step m o kids name c p n hc h' ih =>
      have : o = true := ho [] m o kids ⟨.self _, by simp [NoHidden]⟩
      subst this
      have hh' : NoHidden p := fun x hx => hh x (by simp [hx])
      have hname : name.head? ≠ some 46 := hh name (by simp)
      refine .step hc (ih ?_ hh')
      intro q m' o' k' hv
      refine ho (name :: q) m' o' k' ⟨.step hc hv.1, ?_⟩
      intro x hx
      rcases List.mem_cons.1 hx with rfl | hx
      · exact hname
      · exact hv.2 x hx
  · rintro ⟨h, hh⟩
    exact ⟨seen_at h, hh⟩

section
variable {cfg : Cfg} {base : Bytes} {root : FNode} {S : StdSort Ref} {g : Bytes → UInt8}
  {b mx : Nat} {c : Coll} {bundles : List (List Order)} {archive : Bytes} {eager : Bool}
  {file0 : Option Bytes} {tr : List Ev} {s : Sys}

/-- **C75 (partial)** Archives of the same tree made by the two programs: apart from its own catalog and
fillers, parfu 0.5.1 stores exactly those members of the archive of parfu 0.6, unchanged, in whose path
no name begins with a dot.  So the two hold the same members exactly if there is no such name - whatever
the numbers of processes, schedules, bucket sizes and old contents.
Missing: the limits of C19 and C46. -/
theorem C75_same_members_partial (j : Job cfg.env cfg.fs base root S g b mx c bundles)
    (hl : Launchable cfg b archive)
    (h : CreateRun cfg eager b archive base (bundles.map printBundle) file0 tr s) (hb : s.boss = .exit 0)
    (L : LegEnv) (Q : QSort Frag) (nul top : Bytes) (hp : Platform L nul) (henv : L.env = cfg.env)
    (htop : baseOf top = base) (ha : LegArchivable L.env L.fs top root) (seen : Option FNode)
    (hseen : DirOrLink seen) (n : Nat) (hn : 0 < n) (front : List WriteReq) (wss : List (List WriteReq))
    (h' : legacyMain L Q nul top seen root n = .ok (some (front, wss)))
    (hgap : ∀ cat, (512, cat) ∈ front → (cat.length + 1024) % 4194304 ≠ 0)
    (ws : List WriteReq) (hws : ws.Perm (front ++ wss.flatten)) (old : Bytes) :
    ∃ A new cat all, s.file = some A ∧ readArchive A = some new ∧
      readArchive (ws.foldl writeAt old) = some (cat :: all) ∧ ownMember cat = true ∧
      (∀ m, m ∈ all.filter (fun m => !ownMember m) ↔ m ∈ new ∧ ¬ DotName base m.path) ∧
      ((all.filter fun m => !ownMember m).Perm new ↔ ∀ p n, Seen root p n → describe p n ≠ none → NoHidden p) ∧
      new.Nodup ∧ (all.filter fun m => !ownMember m).Nodup := by
  obtain ⟨A, ms, objs, h1, h2, h3, h4, h5, h6⟩ := C19_every_successful_run j hl h hb
  obtain ⟨cat, all, k1, -, k2, k3, -, ⟨k4, k5⟩, -⟩ :=
    C46_archive_partial L Q nul top root hp ha seen hseen n hn front wss h' hgap ws hws old
  rw [henv, htop] at k4
  have hnew : ∀ m, m ∈ ms ↔ ∃ p n, Seen root p n ∧ memberOf cfg.env base p n = some m := by
    intro m
    have e : m ∈ ms ↔ some m ∈ ms.map some := by simp
    rw [e, h3, List.mem_map]
    constructor
    · rintro ⟨⟨p, k⟩, hx, hm⟩
      exact ⟨p, k, ((h5 p k).1 hx).1, hm⟩
    · rintro ⟨p, k, hs, hm⟩
      refine ⟨(p, k), (h5 p k).2 ⟨hs, ?_⟩, hm⟩
      cases k <;> simp [describe]
      simp [memberOf] at hm
  have hpath : ∀ m p n, memberOf cfg.env base p n = some m → m.path = archivedPath base p n :=
    fun m p n hm => (memberObj_memberOf hm).2
  have hmem : ∀ m, m ∈ all.filter (fun m => !ownMember m) ↔ m ∈ ms ∧ ¬ DotName base m.path := by
    intro m
    rw [k4 m, hnew m]
    constructor
    · rintro ⟨p, k, hv, hm⟩
      obtain ⟨hs, hh⟩ := (visible_iff ha.opened p k).1 hv
      refine ⟨⟨p, k, hs, hm⟩, ?_⟩
      rw [hpath _ _ _ hm, dotName_iff (at_nameOk (seen_at hs) j.tree.treeOk)]
      exact hh
    · rintro ⟨⟨p, k, hs, hm⟩, hd⟩
      rw [hpath _ _ _ hm, dotName_iff (at_nameOk (seen_at hs) j.tree.treeOk)] at hd
      exact ⟨p, k, (visible_iff ha.opened p k).2 ⟨hs, hd⟩, hm⟩
  have hnd' : (all.filter fun m => !ownMember m).Nodup := List.Nodup.of_map _ k5
  have hnd : ms.Nodup := by
    have : (ms.map some).Nodup := by
      rw [h3]
      refine List.Nodup.map_on ?_ (List.Nodup.of_map _ h4)
      rintro ⟨p, k⟩ hx ⟨q, k'⟩ hy he
      have hsx := (h5 p k).1 hx
      have hsy := (h5 q k').1 hy
      have : ∃ m, memberOf cfg.env base p k = some m := by
        have : memberOf cfg.env base p k ∈ ms.map some := by rw [h3]; exact List.mem_map.2 ⟨_, hx, rfl⟩
        obtain ⟨m, _, hm⟩ := List.mem_map.1 this
        exact ⟨m, hm.symm⟩
      obtain ⟨m, hm⟩ := this
      have hm' : memberOf cfg.env base q k' = some m := by rw [← hm]; exact he.symm
      have hr : ∀ q k, Seen root q k → q = [] → IsDir k := by
        rintro q k hq rfl
        rw [seen_functional j.tree.treeOk hq (.self root)]
        exact j.tree.isDir
      have hn1 := at_nameOk (seen_at hsx.1) j.tree.treeOk
      have hn2 := at_nameOk (seen_at hsy.1) j.tree.treeOk
      have e1 := bare_archived (base := base) hn1 (hr _ _ hsx.1)
      have e2 := bare_archived (base := base) hn2 (hr _ _ hsy.1)
      have hpq := placeOf_inj hn1 hn2 (by rw [← e1, ← e2, ← hpath _ _ _ hm, ← hpath _ _ _ hm'])
      subst hpq
      rw [seen_functional j.tree.treeOk hsx.1 hsy.1]
    exact List.Nodup.of_map _ this
  refine ⟨A, ms, cat, all, h1, h2, k1, ?_, hmem, ?_, hnd, hnd'⟩
  · unfold ownMember
    simp only [decide_eq_true_eq]
    exact ⟨k3, Or.inl k2⟩
  · constructor
    · intro hpm p k hs hd
      have : memberOf cfg.env base p k ∈ ms.map some := by
        rw [h3]; exact List.mem_map.2 ⟨(p, k), (h5 p k).2 ⟨hs, hd⟩, rfl⟩
      obtain ⟨m, hm, hme⟩ := List.mem_map.1 this
      have := ((hmem m).1 (hpm.mem_iff.2 hm)).2
      rw [hpath _ _ _ hme.symm, dotName_iff (at_nameOk (seen_at hs) j.tree.treeOk)] at this
      exact this
    · intro hall
      refine (List.perm_ext_iff_of_nodup hnd' hnd).2 ?_
      intro m
      rw [hmem m]
      refine ⟨And.left, fun hm => ⟨hm, ?_⟩⟩
      obtain ⟨p, k, hs, hme⟩ := (hnew m).1 hm
      rw [hpath _ _ _ hme, dotName_iff (at_nameOk (seen_at hs) j.tree.treeOk)]
      refine hall p k hs ?_
      cases k <;> simp [describe]
      simp [memberOf] at hme

/-- **C75 (partial)** What a tar program extracts from the two archives is the same, except below
dot-names and for the two files parfu 0.5.1 adds for itself. -/
theorem C75_same_extraction_partial (j : Job cfg.env cfg.fs base root S g b mx c bundles)
    (hl : Launchable cfg b archive)
    (h : CreateRun cfg eager b archive base (bundles.map printBundle) file0 tr s) (hb : s.boss = .exit 0)
    (L : LegEnv) (Q : QSort Frag) (nul top : Bytes) (hp : Platform L nul)
    (htop : baseOf top = base) (ha : LegArchivable L.env L.fs top root) (seen : Option FNode)
    (hseen : DirOrLink seen) (n : Nat) (hn : 0 < n) (front : List WriteReq) (wss : List (List WriteReq))
    (h' : legacyMain L Q nul top seen root n = .ok (some (front, wss)))
    (hgap : ∀ cat, (512, cat) ∈ front → (cat.length + 1024) % 4194304 ≠ 0)
    (hname : base ∉ [catalogName, spacerName])
    (here : Bytes → Bool) (hhere : here (dirPart base) = true) (hcwd : here [] = true)
    (ws : List WriteReq) (hws : ws.Perm (front ++ wss.flatten)) (old : Bytes) :
    ∃ A new leg w w', s.file = some A ∧ readArchive A = some new ∧ readArchive (ws.foldl writeAt old) = some leg ∧
      extract here (fun _ => none) new = some w ∧ extract here (fun _ => none) leg = some w' ∧
      ∀ x, x ∉ [catalogName, spacerName] → ¬ DotName base x → w' x = w x := by
  obtain ⟨A, new, w, h1, h2, h3, h4, h5⟩ := C53_extract_round_trip j hl h hb here hhere
  obtain ⟨leg, w', k2, k3, k4, k5⟩ := C54_legacy_extract_partial L Q nul top root hp ha seen hseen n hn front wss h' hgap
    (by rw [htop]; exact hname) here (by rw [htop]; exact hhere) hcwd ws hws old
  rw [htop] at k4 k5
  refine ⟨A, new, leg, w, w', h1, h2, k2, h3, k3, ?_⟩
  intro x hx hd
  have hplace : ∀ p, (∀ a ∈ p, NameOk a) → x = placeOf base p → NoHidden p := by
    rintro p hn rfl
    have hk : ∃ tail, (tail = [] ∨ tail = [47]) ∧ (placeOf base p).drop base.length = (p.flatMap (fun n => 47 :: n)) ++ tail := by
      refine ⟨[], Or.inl rfl, ?_⟩
      by_cases hp0 : p = []
      · subst hp0; simp [placeOf]
      · rw [flat_pathText p hp0]; simp [placeOf, hp0]
    obtain ⟨tail, ht, hk⟩ := hk
    unfold DotName at hd
    rw [hk, infix_names tail ht p hn] at hd
    simpa [NoHidden] using hd
  cases hw : w x with
  | some o =>
    rcases h5 x o hw with ⟨p, k, hs, rfl⟩ | ⟨hin, _⟩
    · have hh := hplace p (at_nameOk (seen_at hs) j.tree.treeOk) rfl
      rw [k4 p k ((visible_iff ha.opened p k).2 ⟨hs, hh⟩), ← h4 p k hs, hw]
    · simp at hin
  | none =>
    cases hw' : w' x with
    | none => rfl
    | some o =>
      rcases k5 x o hw' with ⟨p, k, hv, rfl⟩ | ⟨hin, _⟩
      · rw [k4 p k hv, ← h4 p k ((visible_iff ha.opened p k).1 hv).1, hw] at hw'
        exact hw'.symm
      · exact absurd hin hx
end

/-! ### a concrete tree, with a plain name or a dot-name -/

/-- A directory with a file and a link. -/
def bothTree (x : Bytes) : FNode :=
  .dir ⟨420, 0, 0, 0⟩ true (.cons x (.reg ⟨420, 0, 0, 0⟩ [1, 2]) (.cons [98] (.lnk ⟨420, 0, 0, 0⟩ [120]) .nil))

def bothSeen (x : Bytes) : List (List Bytes × FNode) :=
  [([], bothTree x), ([x], .reg ⟨420, 0, 0, 0⟩ [1, 2]), ([[98]], .lnk ⟨420, 0, 0, 0⟩ [120])]

theorem both_at {x : Bytes} {p : List Bytes} {n : FNode} (h : At (bothTree x) p n) : (p, n) ∈ bothSeen x := by
  unfold bothTree at h
  cases h with
  | self => simp [bothSeen, bothTree]
  | step hc h' =>
    cases hc with
    | here => cases h'; simp [bothSeen]
    | there hc =>
    cases hc with
    | here => cases h'; simp [bothSeen]
    | there hc => cases hc

theorem both_cases {x : Bytes} {p : List Bytes} {n : FNode} (h : At (bothTree x) p n) :
    (p = [] ∧ n = bothTree x) ∨ (p = [x] ∧ n = .reg ⟨420, 0, 0, 0⟩ [1, 2]) ∨
    (p = [[98]] ∧ n = .lnk ⟨420, 0, 0, 0⟩ [120]) := by
  simpa only [bothSeen, List.mem_cons, List.not_mem_nil, or_false, Prod.mk.injEq] using both_at h

/-- The file system: the tree is the directory `d`. -/
def bothFs (x : Bytes) : FS := fun path => ((bothSeen x).find? (fun y => [100, 47] ++ pathText y.1 == path)).map Prod.snd

def bothCfg (x : Bytes) : Cfg := ⟨3, demoEnv2, bothFs x, true⟩

def bothEnv (x : Bytes) : LegEnv := ⟨demoEnv2, bothFs x, false, fun _ => 1700000000, 1700000000, 1700000000⟩

/-- The two names that are tried: `a` and `.a`. -/
def BothName (x : Bytes) : Prop := x = [97] ∨ x = [46, 97]

theorem both_ok {x : Bytes} (hx : BothName x) : TreeOk (bothTree x) := by
  rcases hx with rfl | rfl <;> simp [bothTree, TreeOk, KidsOk, names, NameOk]

theorem both_owner {x : Bytes} {p : List Bytes} {n : FNode} (h : At (bothTree x) p n) : MetaOk demoEnv2 (metaOf n) := by
  have hm : metaOf n = ⟨420, 0, 0, 0⟩ := by
    rcases both_cases h with ⟨rfl, rfl⟩ | ⟨rfl, rfl⟩ | ⟨rfl, rfl⟩ <;> rfl
  rw [hm]
  exact ⟨by decide, by decide, by decide, by decide, ⟨[114], rfl, by decide, by decide⟩, ⟨[103], rfl, by decide, by decide⟩⟩

theorem both_archivable {x : Bytes} (hx : BothName x) : Archivable demoEnv2 (bothFs x) [100] (bothTree x) := by
  refine ⟨⟨trivial, both_ok hx, ?_, ?_, ?_, ?_, ?_, ?_, ?_⟩, ?_⟩
  · intro p n h
    rcases hx with rfl | rfl <;> rcases both_cases (seen_at h) with ⟨rfl, rfl⟩ | ⟨rfl, rfl⟩ | ⟨rfl, rfl⟩ <;> rfl
  · decide
  · decide
  · intro p n h
    rcases hx with rfl | rfl <;> rcases both_cases (seen_at h) with ⟨rfl, rfl⟩ | ⟨rfl, rfl⟩ | ⟨rfl, rfl⟩ <;> decide
  · intro p m t h
    rcases both_cases (seen_at h) with ⟨_, h⟩ | ⟨_, h⟩ | ⟨_, h⟩ <;> simp [bothTree] at h
    obtain ⟨_, rfl⟩ := h
    decide
  · intro p n h
    rcases hx with rfl | rfl <;> rcases both_cases (seen_at h) with ⟨rfl, rfl⟩ | ⟨rfl, rfl⟩ | ⟨rfl, rfl⟩ <;> decide
  · intro p n h _
    exact both_owner (seen_at h)
  · intro p m o k h hp
    have : p = [] ∨ p = [x] ∨ p = [[98]] := by
      rcases both_cases (seen_at h) with ⟨h, _⟩ | ⟨h, _⟩ | ⟨h, _⟩ <;> simp [h]
    rcases hx with rfl | rfl <;> rcases this with rfl | rfl | rfl <;> decide

def bothC (x : Bytes) : Coll :=
  { dirs := [⟨-12, ⟨[], .dir, [], 0⟩, 512⟩],
    files := [⟨2, ⟨x, .reg, [], 2⟩, 512⟩, ⟨-11, ⟨[98], .lnk, [120], 0⟩, 512⟩] }

def bothBundles (x : Bytes) : List (List Order) :=
  [[⟨0, [], .dir, [], 0, 512, 0, 0⟩, ⟨0, [98], .lnk, [120], 0, 512, 512, 0⟩, ⟨0, x, .reg, [], 2, 512, 1024, 0⟩]]

theorem both_job {x : Bytes} (hx : BothName x) :
    Job (bothCfg x).env (bothCfg x).fs [100] (bothTree x) demoSort2 (fun _ => 0) 102400 3 (bothC x) (bothBundles x) := by
  constructor
  · exact both_archivable hx
  · intro _; rfl
  · decide
  all_goals rcases hx with rfl | rfl <;> decide +kernel

theorem both_launchable (x : Bytes) : Launchable (bothCfg x) 102400 [97] := by
  have h3 : (bothCfg x).ranks = 3 := rfl
  constructor <;> first | decide | (rw [h3]; decide)

theorem both_leg {x : Bytes} (hx : BothName x) : LegArchivable demoEnv2 (bothFs x) [100] (bothTree x) := by
  constructor
  · trivial
  · exact both_ok hx
  · intro p m o k h
    rcases both_cases h.1 with ⟨_, h⟩ | ⟨_, h⟩ | ⟨_, h⟩ <;> simp [bothTree] at h
    exact h.2.1
  · intro p n h
    rcases hx with rfl | rfl <;> rcases both_cases h.1 with ⟨rfl, rfl⟩ | ⟨rfl, rfl⟩ | ⟨rfl, rfl⟩ <;> rfl
  · decide
  · decide
  · intro p n h
    rcases hx with rfl | rfl <;> rcases both_cases h.1 with ⟨rfl, rfl⟩ | ⟨rfl, rfl⟩ | ⟨rfl, rfl⟩ <;> decide
  · intro p m o k h hp
    have : p = [] ∨ p = [x] ∨ p = [[98]] := by
      rcases both_cases h.1 with ⟨h, _⟩ | ⟨h, _⟩ | ⟨h, _⟩ <;> simp [h]
    rcases hx with rfl | rfl <;> rcases this with rfl | rfl | rfl <;> decide
  · intro p m t h
    rcases both_cases h.1 with ⟨_, h⟩ | ⟨_, h⟩ | ⟨_, h⟩ <;> simp [bothTree] at h
    obtain ⟨_, rfl⟩ := h
    decide
  · intro p n h
    rcases hx with rfl | rfl <;> rcases both_cases h.1 with ⟨rfl, rfl⟩ | ⟨rfl, rfl⟩ | ⟨rfl, rfl⟩ <;> decide
  · intro p n h _
    exact both_owner h.1
  · intro p m c h
    rcases both_cases h.1 with ⟨_, h⟩ | ⟨_, h⟩ | ⟨_, h⟩ <;> simp [bothTree] at h
    obtain ⟨_, rfl⟩ := h
    simp
  · refine ⟨[[98]], .lnk ⟨420, 0, 0, 0⟩ [120], by simp, ⟨.step (.there (.here (by decide) (by decide))) (.self _), ?_⟩, by simp [describe]⟩
    simp [NoHidden]

theorem both_platform (x : Bytes) : Platform (bothEnv x) glibcNull :=
  ⟨rfl, fun _ => by simp [bothEnv], by simp [bothEnv], by simp [bothEnv], by decide⟩

theorem both_short {x : Bytes} (hx : BothName x) : ∀ p m, Visible (bothTree x) p m → (archivedPath (baseOf [100]) p m).length ≤ 100 ∧
    ∀ d t, m = .lnk d t → t.length ≤ 100 := by
  intro p n h
  constructor
  · rcases hx with rfl | rfl <;> rcases both_cases h.1 with ⟨rfl, rfl⟩ | ⟨rfl, rfl⟩ | ⟨rfl, rfl⟩ <;> decide
  · rintro m t rfl
    rcases both_cases h.1 with ⟨_, h⟩ | ⟨_, h⟩ | ⟨_, h⟩ <;> simp [bothTree] at h
    rw [h.2]; decide

/-- Both programs archive the tree, 0.6 with three processes, 0.5.1 with two ranks. -/
theorem both_runs {x : Bytes} (hx : BothName x) (Q : QSort Frag) : (∃ tr s,
    CreateRun (bothCfg x) true 102400 [97] [100] ((bothBundles x).map printBundle) none tr s ∧ s.boss = .exit 0) ∧
    ∃ front wss, legacyMain (bothEnv x) Q glibcNull [100] (some (bothTree x)) (bothTree x) 2 = .ok (some (front, wss)) ∧
      ∀ cat, (512, cat) ∈ front → (cat.length + 1024) % 4194304 ≠ 0 := by
  constructor
  · obtain ⟨_, _, tr, s, h, hf⟩ := C19_runs_succeed (both_job hx) (archive := [97]) (both_launchable x) (show 2 ≤ 3 by decide) rfl Run.nil
    rw [List.nil_append] at h
    exact ⟨tr, s, h, hf.1⟩
  · have hcnt : ∀ os : List (List Bytes × FNode), os.Nodup → (∀ o ∈ os, Visible (bothTree x) o.1 o.2) → os.length ≤ 3 := by
      intro os hnd hv
      exact (List.subperm_of_subset hnd (fun o ho => both_at (hv o ho).1)).length_le
    have ha := both_leg hx
    obtain ⟨front, wss, h⟩ := C48_run_succeeds (bothEnv x) Q glibcNull [100] (bothTree x) (both_platform x) (by decide) ha
      (some (bothTree x)) trivial 2 (by omega) (both_short hx) (by
        intro os hnd hv
        have hl := hcnt os hnd hv
        have : ∀ o ∈ os, fileLength o.2 / 4194304 + 2 ≤ 2 := by
          intro o ho
          rcases o with ⟨p, n⟩
          rcases both_cases (hv _ ho).1 with ⟨_, h⟩ | ⟨_, h⟩ | ⟨_, h⟩ <;> simp only [] at h <;> rw [h] <;> simp [fileLength, bothTree]
        have := sum_le_mul (fun o => fileLength o.2 / 4194304 + 2) os 2 this
        omega)
    refine ⟨front, wss, h, ?_⟩
    obtain ⟨es, ms, h1, h3, h4, h5, h8, h9, h6, h7⟩ := main_run (L := bothEnv x) (both_platform x) ha Q
    have h' := h
    rw [h1 _ rfl] at h'
    obtain ⟨hap, cat, z, hcat, hfr, _⟩ := run_writes h3 blocking_free (both_platform x).nul (by omega) h'
    have hlines : ∀ e ∈ es, (catLine glibcNull true e).length ≤ 640 := by
      intro e he
      obtain ⟨p, n, hv, _, _, _, _, hs⟩ := h7 e he
      obtain ⟨_, q2, _, q3, _⟩ := hs (both_short hx p n hv).1 (both_short hx p n hv).2
      exact lineArc_le (h3.plain e he) q3 q2
    have hsum := sum_le_mul (fun e => (catLine glibcNull true e).length) es 640 hlines
    have hel : es.length ≤ 3 := by
      have hsub : es.map Frag.arc ⊆ (bothSeen x).map (fun x => pathText x.1) := by
        intro a ha
        obtain ⟨e, he, rfl⟩ := List.mem_map.1 ha
        obtain ⟨p, n, hv, _, harc, _⟩ := h7 e he
        exact List.mem_map.2 ⟨(p, n), both_at hv.1, harc.symm⟩
      have := (List.subperm_of_subset h5 hsub).length_le
      simpa [bothSeen] using this
    have hcount := listToBuffer_count hcat
    obtain ⟨t1, t2, _⟩ := listToBuffer_text hcat
    have hb : legBucket = 4194304 := rfl
    have hfl : ((es.map (catLine glibcNull true)).flatten).length = (es.map (fun e => (catLine glibcNull true e).length)).sum := by
      rw [List.length_flatten, List.map_map]; rfl
    have hlen : cat.length ≤ 3000 := by
      rw [t1]
      have v1 : versionText.length = 10 := rfl
      have v2 : (typeText true).length = 10 := rfl
      simp only [catText, List.length_append, List.length_singleton, hfl, v1, v2]
      rw [pad10_len (by omega) (by omega), pad10_len (by omega) (by omega), pad10_len (by omega) (by omega)]
      omega
    intro cat' hc
    by_cases he : cat' = cat
    · rw [he]; omega
    · have hs : Std.Symm WApart := ⟨fun _ _ => WApart.symm⟩
      have := (List.pairwise_append.1 hap).1.forall hc hfr.text (by simpa using he)
      unfold WApart Apart at this
      simp only [] at this
      have h2 : 0 < cat.length := by rw [t1]; simp [catText]
      omega

/-- With the file `a` the two archives hold the same three members; with the file `.a` they do not. -/
example (Q : QSort Frag) (old : Bytes) (x : Bytes) (hx : BothName x) : ∃ tr s front wss A new all,
    CreateRun (bothCfg x) true 102400 [97] [100] ((bothBundles x).map printBundle) none tr s ∧
    legacyMain (bothEnv x) Q glibcNull [100] (some (bothTree x)) (bothTree x) 2 = .ok (some (front, wss)) ∧
    s.file = some A ∧ readArchive A = some new ∧ readArchive ((front ++ wss.flatten).foldl writeAt old) = some all ∧
    ((all.filter fun m => !ownMember m).Perm new ↔ x = [97]) := by
  obtain ⟨⟨tr, s, h, hb⟩, front, wss, h', hgap⟩ := both_runs hx Q
  obtain ⟨A, new, cat, all, h1, h2, h3, h4, h5, h6, _, _⟩ := C75_same_members_partial (both_job hx) (archive := [97])
    (both_launchable x) h hb (bothEnv x) Q glibcNull [100] (both_platform x) rfl rfl (both_leg hx) (some (bothTree x)) trivial 2
    (by omega) front wss h' hgap _ (.refl _) old
  refine ⟨tr, s, front, wss, A, new, cat :: all, h, h', h1, h2, h3, ?_⟩
  rw [List.filter_cons_of_neg (by simp [h4]), h6]
  constructor
  · intro hall
    rcases hx with rfl | rfl
    · rfl
    · have := hall [[46, 97]] (.reg ⟨420, 0, 0, 0⟩ [1, 2]) (.step (.here (by decide) (by decide)) (.self _)) (by simp [describe])
      simp [NoHidden] at this
  · rintro rfl p n hs _
    rcases both_cases (seen_at hs) with ⟨rfl, _⟩ | ⟨rfl, _⟩ | ⟨rfl, _⟩ <;> simp [NoHidden]

end Parfu.Props
