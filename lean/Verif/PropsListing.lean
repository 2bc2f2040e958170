/-
Property theorems C81: the archive and the order in which directories list their entries.
-/
import Verif.LegacyListing
import Verif.PropsAgain
set_option autoImplicit false

namespace Parfu.Props
open Parfu MoveSpec TarSpec ScanSpec PlanSpec ProtocolSpec LegacyScanSpec LegacyRunSpec ExtractSpec ListingSpec

/-- **C81 (0.5.1)** What parfu 0.5.1 writes does not depend on the order in which the file system lists
the entries of a directory, nor on the sorting algorithm behind `qsort`: on any number of ranks, every
byte of every write is the same — and if the run fails, it fails the same way. -/
theorem C81_legacy_same_archive {L : LegEnv} {Q Q' : QSort Frag} {nul top : Bytes} {seen seen' : Option FNode}
    {t t' : FNode} {fs' : FS} (hseen : DirOrLink seen) (hseen' : DirOrLink seen') (hd : IsDir t) (hok : TreeOk t)
    (hok' : TreeOk t') (hs : SameObjects t t') (hf : SameFiles L.fs fs') (n : Nat) :
    legacyMain { L with fs := fs' } Q' nul top seen' t' n = legacyMain L Q nul top seen t n := by
  have hrun := legacyRun_files (L := L) hf.read hf.lstat
  unfold legacyMain
  rw [hrun]
  rcases scan_same top hseen hseen' hd hok hok' hs with ⟨e, e'⟩ | ⟨l, l', e, e', hp, hnd, h0⟩
  · rw [e, e']; rfl
  · rw [e, e']
    simp only [bindRO]
    unfold fillRel
    by_cases htop : top = []
    · rw [if_pos htop, if_pos htop]
    · rw [if_neg htop, if_neg htop]
      show legacyRun L nul legBlock legBucket blockingName (qsortEntries Q' _) n =
        legacyRun L nul legBlock legBucket blockingName (qsortEntries Q _) n
      congr 1
      have hnd' : (l'.frags.map Frag.arc).Nodup := (hp.map _).nodup_iff.1 hnd
      refine C33_unique Q' Q _ _ (hp.symm.map _) ?_ ?_
      · intro f hf
        obtain ⟨f0, hm, rfl⟩ := List.mem_map.1 hf
        exact h0 f0 (hp.mem_iff.2 hm)
      · rw [List.map_map]
        exact hnd'

/-! ### the order of the members -/

/-- The members of an archive stand in the order of the planned references. -/
theorem archive_in_order {env : Env} {fs : FS} {base : Bytes} {root : FNode} {S : StdSort Ref} {g : Bytes → UInt8}
    {b mx : Nat} {c : Coll} {bundles : List (List Order)} (j : Job env fs base root S g b mx c bundles) (xs : List Task)
    (hxs : Carried env fs base b bundles xs) (ws : List WriteReq) (hws : ws.Perm (xs.map Task.write)) :
    ∃ ms, readArchive (writeAll ws) = some ms ∧
      List.Forall₂ (fun m (r : Ref) => ∃ p n, Seen root p n ∧ memberOf env base p n = some m ∧ describe p n = some r.ent)
        ms ((orderFiles S c).dirs ++ (orderFiles S c).files) := by
  obtain ⟨hok, ⟨path, node, H, m, hE⟩, hr⟩ := j.setup
  obtain ⟨hlen, hA, _, _⟩ := run_all hr xs hxs ws hws
  obtain ⟨hflat, hs, hhdr, hnd, hcont, _⟩ := plan_flat hok j.planned
  have hread := readArchive_placed (env := env) (writeAll ws) m H (fun q => contentOf (node q))
    (setOffsets (orderFiles S c)).all 0 hcont hlen (by omega) (by
      intro q hq
      have he := hE q hq
      refine ⟨he.hlen, by rw [he.dlen], archive_holds j.tree hok j.planned j.small _ (fun o ho _ => hA o ho) hq he, ?_, ?_⟩
      · obtain ⟨e, _, h⟩ := he.made; exact ⟨e, h⟩
      · intro padding rest hp
        rw [he.dlen] at hp
        exact he.reads padding rest hp)
  rw [List.drop_zero] at hread
  have hrefs : (setOffsets (orderFiles S c)).all.map Placed.ref =
      (orderFiles S c).dirs ++ (orderFiles S c).files := by
    rw [setOffsets_all, placeFrom_refs]
  refine ⟨_, hread, ?_⟩
  rw [← hrefs, List.forall₂_map_left_iff, List.forall₂_map_right_iff]
  refine List.forall₂_same.2 ?_
  intro q hq
  have he := hE q hq
  exact ⟨path q, node q, he.seen, he.memb, he.desc⟩

/-- Where 0.6 puts a member: the directories first, then the links, then the files by size. -/
def standing (m : Member) : Nat := if m.flag = 53 then 0 else if m.linkpath ≠ [] then 1 else 2 + m.data.length

/-- **C81** In the archive of every successful run the directories come first, then the links, then the
regular files, smaller ones before larger ones. -/
theorem C81_member_order {cfg : Cfg} {base : Bytes} {root : FNode} {S : StdSort Ref} {g : Bytes → UInt8}
    {b mx : Nat} {c : Coll} {bundles : List (List Order)} {archive : Bytes} {eager : Bool}
    {file0 : Option Bytes} {tr : List Ev} {s : Sys} (j : Job cfg.env cfg.fs base root S g b mx c bundles)
    (hl : Launchable cfg b archive)
    (h : CreateRun cfg eager b archive base (bundles.map printBundle) file0 tr s) (hb : s.boss = .exit 0) :
    ∃ A ms, s.file = some A ∧ readArchive A = some ms ∧ ms.Pairwise (fun a b => standing a ≤ standing b) := by
  obtain ⟨xs, h1, h2, h3⟩ := run_carried j hl h hb
  obtain ⟨ms, h4, h5⟩ := archive_in_order j xs h1 _ h2
  refine ⟨_, ms, h3, h4, ?_⟩
  have hd : ∀ r ∈ (orderFiles S c).dirs, r.ent.kind = .dir := by
    obtain ⟨c', h', _, _, hk, _⟩ := C07_scan_exact g base root j.tree.isDir j.tree.treeOk j.luck
    rw [j.scanned] at h'
    cases h'
    exact hk
  have hos : ∀ r ∈ (orderFiles S c).dirs ++ (orderFiles S c).files, r.orderSize =
      if r.ent.kind = .dir then orderSizeDir else if r.ent.target.length > 0 then orderSizeSymlink
      else (r.ent.size : Int) := by
    intro r hr
    have hr' : r ∈ c.dirs ++ c.files := by
      rcases List.mem_append.1 hr with hr | hr
      · exact List.mem_append_left _ hr
      · exact List.mem_append_right _ ((C09_order_files S c).2.1.mem_iff.1 hr)
    have hm : mkRef base r.ent = .ok r := by
      have h := j.scanned
      unfold scan at h
      split at h
      · cases h
      · exact (collect_spec h).2.2 r hr'
    unfold mkRef at hm
    simp only [bind, Except.bind] at hm
    split at hm
    · cases hm
    · exact (congrArg Ref.orderSize (Except.ok.inj hm)).symm
  have hsorted : ((orderFiles S c).dirs ++ (orderFiles S c).files).Pairwise (fun a b => a.orderSize ≤ b.orderSize) := by
    have hlow : ∀ r ∈ (orderFiles S c).dirs ++ (orderFiles S c).files, -12 ≤ r.orderSize := by
      intro r hr
      rw [hos r hr]
      unfold orderSizeDir orderSizeSymlink
      split
      · omega
      · split <;> omega
    have hdir : ∀ r ∈ (orderFiles S c).dirs, r.orderSize = -12 := by
      intro r hr
      rw [hos r (List.mem_append_left _ hr), if_pos (hd r hr)]
      rfl
    refine List.pairwise_append.2 ⟨?_, (C09_order_files S c).2.2.1, ?_⟩
    · refine List.Pairwise.imp_of_mem ?_ (List.pairwise_of_forall (R := fun _ _ => True) (fun _ _ => trivial))
      intro a b ha hb _
      rw [hdir a ha, hdir b hb]
    · intro a ha b hb
      rw [hdir a ha]
      exact hlow b (List.mem_append_right _ hb)
  have hst : List.Forall₂ (fun m (r : Ref) => 
        (r.orderSize < 0 → r.orderSize ≤ -11) ∧ (standing m : Int) = if r.orderSize < 0 then r.orderSize + 12 else r.orderSize + 2)
      ms ((orderFiles S c).dirs ++ (orderFiles S c).files) := by
    rw [List.forall₂_iff_get] at h5 ⊢
    refine ⟨h5.1, ?_⟩
    intro i hi hi'
    obtain ⟨p, n, _, hm, hdesc⟩ := h5.2 i hi hi'
    have hr := hos _ (List.getElem_mem hi')
    simp only [List.get_eq_getElem] at hm hdesc ⊢
    generalize ((orderFiles S c).dirs ++ (orderFiles S c).files)[i] = r at *
    generalize ms[i] = m at *
    rw [hr]
    cases n with
    | reg d t =>
      simp only [memberOf] at hm
      split at hm <;> simp only [Option.some.injEq, reduceCtorEq] at hm
      simp only [describe, Option.some.injEq] at hdesc
      rw [← hm, ← hdesc]
      simp [standing]
      omega
    | lnk d t =>
      simp only [memberOf] at hm
      split at hm <;> simp only [Option.some.injEq, reduceCtorEq] at hm
      simp only [describe, Option.some.injEq] at hdesc
      rw [← hm, ← hdesc]
      cases t <;> simp [standing, orderSizeSymlink]
    | dir d o k =>
      simp only [memberOf] at hm
      split at hm <;> simp only [Option.some.injEq, reduceCtorEq] at hm
      simp only [describe, Option.some.injEq] at hdesc
      rw [← hm, ← hdesc]
      simp [standing, orderSizeDir]
    | other d => simp [describe] at hdesc
  revert hsorted hst
  generalize (orderFiles S c).dirs ++ (orderFiles S c).files = rs
  intro hs' hst
  rw [List.pairwise_iff_getElem] at hs' ⊢
  intro i k hi hk hik
  have hlen := hst.length_eq
  have e1 := hst.get hi (by omega)
  have e2 := hst.get hk (by omega)
  have := hs' i k (by omega) (by omega) hik
  simp only [List.get_eq_getElem] at e1 e2
  have a1 := e1.1
  have a2 := e2.1
  have e1 := e1.2
  have e2 := e2.2
  split at e1 <;> split at e2 <;> omega

/-- **C81 (0.6, the part that holds)** Two successful runs of 0.6 over file systems that hold the same
objects — whatever order the directories list them in, and with any number of processes, any schedule,
sort and bucket size — make archives with the same members, and the two archives agree at every position in
the type of the member and, for regular files, in its size.
Missing: the order among the directories, among the links and among files of the same size, see
`C81_order_follows_listing`. -/
theorem C81_same_members_partial {cfg cfg' : Cfg} {base : Bytes} {root root' : FNode} {S S' : StdSort Ref}
    {g g' : Bytes → UInt8} {b mx b' mx' : Nat} {c c' : Coll} {bundles bundles' : List (List Order)}
    {archive archive' : Bytes} {eager eager' : Bool} {file0 file0' : Option Bytes} {tr tr' : List Ev} {s s' : Sys}
    (j : Job cfg.env cfg.fs base root S g b mx c bundles) (hl : Launchable cfg b archive)
    (h : CreateRun cfg eager b archive base (bundles.map printBundle) file0 tr s) (hb : s.boss = .exit 0)
    (hs : SameObjects root root') (henv : cfg'.env = cfg.env)
    (j' : Job cfg'.env cfg'.fs base root' S' g' b' mx' c' bundles') (hl' : Launchable cfg' b' archive')
    (h' : CreateRun cfg' eager' b' archive' base (bundles'.map printBundle) file0' tr' s') (hb' : s'.boss = .exit 0) :
    ∃ A ms A' ms', s.file = some A ∧ readArchive A = some ms ∧ s'.file = some A' ∧ readArchive A' = some ms' ∧
      ms'.Perm ms ∧ ms'.map standing = ms.map standing := by
  obtain ⟨A, ms, h1, h2, h3, h4⟩ := members_iff j hl h hb
  obtain ⟨A', ms', h1', h2', h3', h4'⟩ := members_iff j' hl' h' hb'
  obtain ⟨A1, ms1, k1, k2, k3⟩ := C81_member_order j hl h hb
  obtain ⟨A1', ms1', k1', k2', k3'⟩ := C81_member_order j' hl' h' hb'
  rw [h1] at k1
  rw [h1'] at k1'
  cases k1
  cases k1'
  rw [h2] at k2
  rw [h2'] at k2'
  cases k2
  cases k2'
  refine ⟨A, ms, A', ms', h1, h2, h1', h2', ?_⟩
  have hperm : ms'.Perm ms := by
    refine (List.perm_ext_iff_of_nodup h3' h3).2 ?_
    have ho : ∀ {n n' : FNode}, ownPart n = ownPart n' → objOf n = objOf n' := by
      intro n n' e
      cases n <;> cases n' <;> simp [ownPart] at e <;> simp [objOf, e]
    have key : ∀ {a d : FNode}, SameObjects a d → ∀ m, (∃ p n, Seen a p n ∧ memberOf cfg.env base p n = some m) →
        ∃ p n, Seen d p n ∧ memberOf cfg.env base p n = some m := by
      rintro a d had m ⟨p, n, hn, hm⟩
      obtain ⟨n', hn', en⟩ := (had p _).1 ⟨n, hn, rfl⟩
      exact ⟨p, n', hn', by rw [memberOf_congr (ho en), hm]⟩
    intro m
    rw [h4, h4', henv]
    exact ⟨key hs.symm m, key hs m⟩
  refine ⟨hperm, ?_⟩
  refine List.Perm.eq_of_pairwise (le := (· ≤ ·)) (fun a b _ _ h1 h2 => Nat.le_antisymm h1 h2) ?_ ?_ (hperm.map _)
  · exact List.pairwise_map.2 k3'
  · exact List.pairwise_map.2 k3

/-! ### the witness -/

/-- A directory with two files of two bytes, listed in the order `x`, `y`. -/
def swapTree (x y : Bytes) : FNode :=
  .dir ⟨420, 0, 0, 0⟩ true (.cons x (.reg ⟨420, 0, 0, 0⟩ [1, 2]) (.cons y (.reg ⟨420, 0, 0, 0⟩ [1, 2]) .nil))

/-- The two orders of the names `a` and `b`. -/
def SwapNames (x y : Bytes) : Prop := (x = [97] ∧ y = [98]) ∨ (x = [98] ∧ y = [97])

theorem swap_cases {x y : Bytes} {p : List Bytes} {n : FNode} (h : Seen (swapTree x y) p n) :
    (p = [] ∧ n = swapTree x y) ∨ (p = [x] ∧ n = .reg ⟨420, 0, 0, 0⟩ [1, 2]) ∨ (p = [y] ∧ n = .reg ⟨420, 0, 0, 0⟩ [1, 2]) := by
  unfold swapTree at h
  cases h with
  | self => simp [swapTree]
  | step hc h' =>
    cases hc with
    | here => cases h'; simp
    | there hc =>
    cases hc with
    | here => cases h'; simp
    | there hc => cases hc

theorem swap_seen {x y : Bytes} (hx : SwapNames x y) (p : List Bytes) (n : FNode) : Seen (swapTree x y) p n ↔
    (p = [] ∧ n = swapTree x y) ∨ (p = [[97]] ∧ n = .reg ⟨420, 0, 0, 0⟩ [1, 2]) ∨ (p = [[98]] ∧ n = .reg ⟨420, 0, 0, 0⟩ [1, 2]) := by
  constructor
  · intro h
    rcases hx with ⟨rfl, rfl⟩ | ⟨rfl, rfl⟩ <;> rcases swap_cases h with h | h | h <;> simp [h]
  · rcases hx with ⟨rfl, rfl⟩ | ⟨rfl, rfl⟩ <;> rintro (⟨rfl, rfl⟩ | ⟨rfl, rfl⟩ | ⟨rfl, rfl⟩)
    · exact .self _
    · exact .step (.here (by decide) (by decide)) (.self _)
    · exact .step (.there (.here (by decide) (by decide))) (.self _)
    · exact .self _
    · exact .step (.there (.here (by decide) (by decide))) (.self _)
    · exact .step (.here (by decide) (by decide)) (.self _)

/-- The file system: the tree is the directory `d`. -/
def swapFs (x y : Bytes) : FS := fun path =>
  if path = [100, 47] then some (swapTree x y)
  else if path = [100, 47, 97] ∨ path = [100, 47, 98] then some (.reg ⟨420, 0, 0, 0⟩ [1, 2]) else none

def swapCfg (x y : Bytes) : Cfg := ⟨3, demoEnv2, swapFs x y, true⟩

theorem swap_same : SameObjects (swapTree [97] [98]) (swapTree [98] [97]) ∧
    SameFiles (swapFs [97] [98]) (swapFs [98] [97]) := by
  constructor
  · intro p z
    constructor <;> rintro ⟨n, h, rfl⟩
    · rcases (swap_seen (Or.inl ⟨rfl, rfl⟩) p n).1 h with ⟨rfl, rfl⟩ | ⟨rfl, rfl⟩ | ⟨rfl, rfl⟩
      · exact ⟨_, .self _, rfl⟩
      · exact ⟨_, (swap_seen (Or.inr ⟨rfl, rfl⟩) _ _).2 (Or.inr (Or.inl ⟨rfl, rfl⟩)), rfl⟩
      · exact ⟨_, (swap_seen (Or.inr ⟨rfl, rfl⟩) _ _).2 (Or.inr (Or.inr ⟨rfl, rfl⟩)), rfl⟩
    · rcases (swap_seen (Or.inr ⟨rfl, rfl⟩) p n).1 h with ⟨rfl, rfl⟩ | ⟨rfl, rfl⟩ | ⟨rfl, rfl⟩
      · exact ⟨_, .self _, rfl⟩
      · exact ⟨_, (swap_seen (Or.inl ⟨rfl, rfl⟩) _ _).2 (Or.inr (Or.inl ⟨rfl, rfl⟩)), rfl⟩
      · exact ⟨_, (swap_seen (Or.inl ⟨rfl, rfl⟩) _ _).2 (Or.inr (Or.inr ⟨rfl, rfl⟩)), rfl⟩
  · intro path
    unfold swapFs
    split
    · rfl
    · rfl

theorem swap_archivable {x y : Bytes} (hx : SwapNames x y) : Archivable demoEnv2 (swapFs x y) [100] (swapTree x y) := by
  refine ⟨⟨trivial, ?_, ?_, ?_, ?_, ?_, ?_, ?_, ?_⟩, ?_⟩
  · rcases hx with ⟨rfl, rfl⟩ | ⟨rfl, rfl⟩ <;> simp [swapTree, TreeOk, KidsOk, names, NameOk]
  · intro p n h
    rcases (swap_seen hx p n).1 h with ⟨rfl, rfl⟩ | ⟨rfl, rfl⟩ | ⟨rfl, rfl⟩ <;> rfl
  · decide
  · decide
  · intro p n h
    rcases (swap_seen hx p n).1 h with ⟨rfl, rfl⟩ | ⟨rfl, rfl⟩ | ⟨rfl, rfl⟩ <;> decide
  · intro p m t h
    rcases (swap_seen hx _ _).1 h with ⟨_, h⟩ | ⟨_, h⟩ | ⟨_, h⟩ <;> simp [swapTree] at h
  · intro p n h
    rcases (swap_seen hx p n).1 h with ⟨rfl, rfl⟩ | ⟨rfl, rfl⟩ | ⟨rfl, rfl⟩ <;> decide
  · intro p n h _
    have hm : metaOf n = ⟨420, 0, 0, 0⟩ := by
      rcases (swap_seen hx p n).1 h with ⟨rfl, rfl⟩ | ⟨rfl, rfl⟩ | ⟨rfl, rfl⟩ <;> rfl
    rw [hm]
    exact ⟨by decide, by decide, by decide, by decide, ⟨[114], rfl, by decide, by decide⟩, ⟨[103], rfl, by decide, by decide⟩⟩
  · intro p m o k h hp
    rcases (swap_seen hx _ _).1 h with ⟨rfl, _⟩ | ⟨rfl, _⟩ | ⟨rfl, _⟩ <;> decide

def swapC (x y : Bytes) : Coll :=
  { dirs := [⟨-12, ⟨[], .dir, [], 0⟩, 512⟩],
    files := [⟨2, ⟨x, .reg, [], 2⟩, 512⟩, ⟨2, ⟨y, .reg, [], 2⟩, 512⟩] }

def swapBundles (x y : Bytes) : List (List Order) :=
  [[⟨0, [], .dir, [], 0, 512, 0, 0⟩, ⟨0, x, .reg, [], 2, 512, 512, 0⟩, ⟨0, y, .reg, [], 2, 512, 1536, 0⟩]]

theorem swap_job {x y : Bytes} (hx : SwapNames x y) : Job (swapCfg x y).env (swapCfg x y).fs [100] (swapTree x y) demoSort2
    (fun _ => 0) 102400 3 (swapC x y) (swapBundles x y) := by
  constructor
  · exact swap_archivable hx
  · intro _; rfl
  · decide
  all_goals rcases hx with ⟨rfl, rfl⟩ | ⟨rfl, rfl⟩ <;> decide +kernel

theorem swap_launchable (x y : Bytes) : Launchable (swapCfg x y) 102400 [97] := by
  have h3 : (swapCfg x y).ranks = 3 := rfl
  constructor <;> first | decide | (rw [h3]; decide)

/-- A successful run puts the files in the order in which they were listed. -/
theorem swap_archive {x y : Bytes} (hx : SwapNames x y) : ∃ tr s A ms,
    CreateRun (swapCfg x y) true 102400 [97] [100] ((swapBundles x y).map printBundle) none tr s ∧ s.boss = .exit 0 ∧
    s.file = some A ∧ readArchive A = some ms ∧ ms.map (fun m => m.path) = [[100, 47], [100, 47] ++ x, [100, 47] ++ y] := by
  obtain ⟨_, _, tr, s, h, hf⟩ := C19_runs_succeed (swap_job hx) (archive := [97]) (swap_launchable x y) (show 2 ≤ 3 by decide) rfl Run.nil
  rw [List.nil_append] at h
  obtain ⟨xs, h1, h2, h3⟩ := run_carried (swap_job hx) (swap_launchable x y) h hf.1
  obtain ⟨ms, h4, h5⟩ := archive_in_order (swap_job hx) xs h1 _ h2
  refine ⟨tr, s, _, ms, h, hf.1, h3, h4, ?_⟩
  have hf' : (orderFiles demoSort2 (swapC x y)).dirs ++ (orderFiles demoSort2 (swapC x y)).files =
      [⟨-12, ⟨[], .dir, [], 0⟩, 512⟩, ⟨2, ⟨x, .reg, [], 2⟩, 512⟩, ⟨2, ⟨y, .reg, [], 2⟩, 512⟩] := rfl
  rw [hf'] at h5
  have hp : ∀ {m : Member} {e : Ent}, (∃ p n, Seen (swapTree x y) p n ∧ memberOf demoEnv2 [100] p n = some m ∧ describe p n = some e) →
      m.path = [100, 47] ++ e.rel := by
    rintro m e ⟨p, n, hs, hm, hd⟩
    rcases (swap_seen hx p n).1 hs with ⟨rfl, rfl⟩ | ⟨rfl, rfl⟩ | ⟨rfl, rfl⟩ <;>
      simp [describe, swapTree] at hd <;> simp [memberOf, demoEnv2, swapTree] at hm <;> rw [← hd, ← hm] <;>
      simp [archivedPath, pathText]
  cases h5 with
  | cons a1 h5 =>
    cases h5 with
    | cons a2 h5 =>
      cases h5 with
      | cons a3 h5 =>
        cases h5
        simp [hp a1, hp a2, hp a3]

/-- **C81 (violated by 0.6)** Two file systems that hold the same objects, in one of which a directory
lists `a` before `b` and in the other `b` before `a`: the same command, successful both times, makes two
different archives. -/
theorem C81_order_follows_listing : ∃ tr s A ms tr' s' A' ms',
    SameObjects (swapTree [97] [98]) (swapTree [98] [97]) ∧ SameFiles (swapFs [97] [98]) (swapFs [98] [97]) ∧
    CreateRun (swapCfg [97] [98]) true 102400 [97] [100] ((swapBundles [97] [98]).map printBundle) none tr s ∧
    s.boss = .exit 0 ∧ s.file = some A ∧ readArchive A = some ms ∧
    CreateRun (swapCfg [98] [97]) true 102400 [97] [100] ((swapBundles [98] [97]).map printBundle) none tr' s' ∧
    s'.boss = .exit 0 ∧ s'.file = some A' ∧ readArchive A' = some ms' ∧
    ms ≠ ms' ∧ A ≠ A' ∧
    ms.map (fun m => m.path) = [[100, 47], [100, 47, 97], [100, 47, 98]] ∧
    ms'.map (fun m => m.path) = [[100, 47], [100, 47, 98], [100, 47, 97]] := by
  obtain ⟨tr, s, A, ms, h1, h2, h3, h4, h5⟩ := swap_archive (x := [97]) (y := [98]) (Or.inl ⟨rfl, rfl⟩)
  obtain ⟨tr', s', A', ms', h1', h2', h3', h4', h5'⟩ := swap_archive (x := [98]) (y := [97]) (Or.inr ⟨rfl, rfl⟩)
  have hne : ms ≠ ms' := by
    rintro rfl
    rw [h5] at h5'
    revert h5'
    decide
  refine ⟨tr, s, A, ms, tr', s', A', ms', swap_same.1, swap_same.2, h1, h2, h3, h4, h1', h2', h3', h4', hne, ?_, h5, h5'⟩
  rintro rfl
  rw [h4] at h4'
  cases h4'
  exact hne rfl

/-- The theorem for 0.6 applies to those two trees. -/
example : ∃ (ms ms' : List Member), ms'.Perm ms ∧ ms'.map standing = ms.map standing ∧ ms' ≠ ms ∧ ms.length = 3 := by
  obtain ⟨tr, s, A, ms, h1, h2, h3, h4, h5⟩ := swap_archive (x := [97]) (y := [98]) (Or.inl ⟨rfl, rfl⟩)
  obtain ⟨tr', s', A', ms', h1', h2', h3', h4', h5'⟩ := swap_archive (x := [98]) (y := [97]) (Or.inr ⟨rfl, rfl⟩)
  obtain ⟨B, bs, B', bs', k1, k2, k3, k4, k5, k6⟩ := C81_same_members_partial (cfg' := swapCfg [98] [97]) (swap_job (Or.inl ⟨rfl, rfl⟩)) (swap_launchable _ _) h1 h2 swap_same.1 rfl
    (swap_job (Or.inr ⟨rfl, rfl⟩)) (swap_launchable _ _) h1' h2'
  refine ⟨bs, bs', k5, k6, ?_, ?_⟩
  · rintro rfl
    rw [h3] at k1; cases k1
    rw [h3'] at k3; cases k3
    rw [h4] at k2; cases k2
    rw [h4'] at k4; cases k4
    rw [h5] at h5'
    revert h5'
    decide
  · rw [h3] at k1; cases k1
    rw [h4] at k2; cases k2
    have := congrArg List.length h5
    simpa using this

/-- The theorem for 0.5.1 applies to them: both archives are the same, for any two conforming sorts. -/
example (Q Q' : QSort Frag) (L : LegEnv) (hL : L.fs = swapFs [97] [98]) (n : Nat) :
    legacyMain { L with fs := swapFs [98] [97] } Q' glibcNull [100] (some (swapTree [98] [97])) (swapTree [98] [97]) n =
    legacyMain L Q glibcNull [100] (some (swapTree [97] [98])) (swapTree [97] [98]) n :=
  C81_legacy_same_archive (t := swapTree [97] [98]) (t' := swapTree [98] [97]) (seen := some (swapTree [97] [98])) (seen' := some (swapTree [98] [97])) trivial trivial trivial
    (swap_archivable (Or.inl ⟨rfl, rfl⟩)).treeOk (swap_archivable (Or.inr ⟨rfl, rfl⟩)).treeOk swap_same.1
    (by rw [hL]; exact swap_same.2) n

end Parfu.Props
