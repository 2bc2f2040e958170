/-
C64: the tree changes between the scan and the copying (parfu 0.6).
-/
import Verif.PropsSilent
import Verif.ChangeLemmas
set_option autoImplicit false

namespace Parfu.ScanSpec
open Parfu

mutual
/-- Two trees have the same shape: the same names in the same listings, the same kinds of object, the
same sizes of files, the same link targets.  Contents of files, permissions, owners and times may
differ. -/
def SameShape : FNode → FNode → Prop
  | .reg _ c, .reg _ c' => c.length = c'.length
  | .lnk _ t, .lnk _ t' => t = t'
  | .dir _ o k, .dir _ o' k' => o = o' ∧ SameKids k k'
  | .other _, .other _ => True
  | _, _ => False
def SameKids : Kids → Kids → Prop
  | .nil, .nil => True
  | .cons n c r, .cons n' c' r' => n = n' ∧ SameShape c c' ∧ SameKids r r'
  | _, _ => False
end

end Parfu.ScanSpec

namespace Parfu.Props
open Parfu MainSpec MoveSpec TarSpec ScanSpec PlanSpec ProtocolSpec

mutual
theorem spiderDir_shape (g : Bytes → UInt8) (rel : Bytes) : ∀ n n' : FNode, SameShape n n' → spiderDir g rel n = spiderDir g rel n'
  | .reg .., .reg .., _ => rfl
  | .lnk .., .lnk .., _ => rfl
  | .other .., .other .., _ => rfl
  | .dir _ o k, .dir _ o' k', h => by
    obtain ⟨rfl, h⟩ := h
    simp only [spiderDir, spiderKids_shape g rel k k' h]
  | .reg .., .lnk .., h | .reg .., .dir .., h | .reg .., .other .., h | .lnk .., .reg .., h | .lnk .., .dir .., h
  | .lnk .., .other .., h | .dir .., .reg .., h | .dir .., .lnk .., h | .dir .., .other .., h | .other .., .reg .., h
  | .other .., .lnk .., h | .other .., .dir .., h => False.elim h
theorem spiderKids_shape (g : Bytes → UInt8) (rel : Bytes) : ∀ k k' : Kids, SameKids k k' → spiderKids g rel k = spiderKids g rel k'
  | .nil, .nil, _ => rfl
  | .nil, .cons .., h | .cons .., .nil, h => False.elim h
  | .cons n c r, .cons n' c' r', h => by
    obtain ⟨rfl, h1, h2⟩ := h
    simp only [spiderKids, spiderKids_shape g rel r r' h2, spiderDir_shape g _ c c' h1]
    split
    · rfl
    · cases c <;> cases c' <;> simp only [SameShape] at h1 <;> try exact h1.elim
      · simp only [addKid, h1]
      · subst h1; rfl
      · rfl
      · rfl
end

/-- The scan does not see the difference. -/
theorem scan_shape (g : Bytes → UInt8) (base : Bytes) (n n' : FNode) (h : SameShape n n') :
    scan g base n = scan g base n' := by
  unfold scan
  rw [spiderDir_shape g [] n n' h]

section
variable {S : StdSort Ref} {g : Bytes → UInt8} {look : Bytes → FNode} {mx0 : Nat} {args : List Bytes} {c : Cfg}
  {tr : List Ev} {s : Sys}

/-- **C64 (partial)** The whole program, with the tree that was scanned and the tree that is there when
the workers copy being different trees of the same shape (contents of files, permissions, owners and
times changed in between): under the limits of C19 every run can be continued until all processes have
ended normally, and a run that cannot go on has left the tar file of exactly the tree as it was when it
was copied - with the new contents, permissions, owners and times.
Missing: changes of shape (see `C64_success_means_present` and `C64_grown_file_hides_others`), and
changes while the workers are at work. -/
theorem C64_same_shape_partial {t : Bytes} {o : Opts} {now : FNode} (hsh : SameShape (look t) now) (hsa : ShortArgs args)
    (hp : parseArgs [] (defaultOpts mx0) args = .ok (some ([t], o))) (ha : o.archive ≠ [])
    (han : (0 : UInt8) ∉ o.archive) (hb1 : 100000 ≤ o.bucket) (hb2 : o.bucket < 2 ^ 31)
    (ht : ShortTree c.env c.fs t now) (hg : ∀ r, g r = 0)
    (htotal : ∀ objs : List (List Bytes × FNode), (objs.map Prod.fst).Nodup →
      (∀ x ∈ objs, Seen now x.1 x.2) → (objs.map (fun x => tarBytes x.2)).sum < 2 ^ 31)
    (hr2 : 2 ≤ c.ranks) (hrI : c.ranks < 2 ^ 31) (hc : c.creatable = true)
    (h : MainRun S g look mx0 args c true none tr s) :
    (∃ more s', MainRun S g look mx0 args c true none (tr ++ more) s' ∧ Finished c 0 s') ∧
    (Stuck c s → Finished c 0 s ∧
      ∃ (A : Bytes) (ms : List Member) (objs : List (List Bytes × FNode)),
        s.file = some A ∧ readArchive A = some ms ∧
        ms.map some = objs.map (fun x => memberOf c.env t x.1 x.2) ∧
        (objs.map Prod.fst).Nodup ∧
        (∀ p n, (p, n) ∈ objs ↔ Seen now p n ∧ describe p n ≠ none) ∧
        (∀ pre x post, objs = pre ++ x :: post → pre ≠ [] →
          ∃ y ∈ pre, IsDir y.2 ∧ ∃ name, x.1 = y.1 ++ [name])) := by
  have hrun : ∀ tr s, MainRun S g look mx0 args c true none tr s ↔ MainRun S g (fun _ => now) mx0 args c true none tr s := by
    have hne : args ≠ [] := by rintro rfl; simp [parseArgs] at hp
    obtain ⟨coll, bundles, j⟩ := C19_short_paths S g o.bucket o.mx ht hg (bucket_blocks hsa hp) hb1 htotal
    have h1 := mainStart_job (look := fun _ => now) (c := c) (file0 := none) hne hp ha j.scanned j.planned
    have h2 := mainStart_job (look := look) (c := c) (file0 := none) hne hp ha
      ((scan_shape g t _ _ hsh).trans j.scanned) j.planned
    intro tr s
    unfold MainRun
    rw [h1, h2]
  obtain ⟨_, h3, h4⟩ := C19_whole_program (look := fun _ => now) hsa hp ha han hb1 hb2 ht hg htotal hr2 hrI hc ((hrun _ _).1 h)
  obtain ⟨more, s', h5, h6⟩ := h3
  exact ⟨⟨more, s', (hrun _ _).2 h5, h6⟩, h4⟩

end

/-! ### status 0 means that everything was still there -/

theorem moveLoop_each {env : Env} {fs : FS} {base : Bytes} {start : Nat} : ∀ (ws : List WOrder) (buf out : Bytes),
    moveLoop env fs base start ws buf = .ok out → ∀ w ∈ ws, ∃ b1 b2, moveOne env fs base start b1 w = .ok b2
  | [], _, _, _ => by simp
  | w :: ws, buf, out, h => by
    unfold moveLoop at h
    split at h
    · cases h
    · rename_i buf' hm
      intro v hv
      rcases List.mem_cons.1 hv with rfl | hv
      · exact ⟨_, _, hm⟩
      · exact moveLoop_each ws buf' out h v hv

/-- A header that was built: the path named an object of a known kind. -/
theorem header_present {env : Env} {fs : FS} {full buf out : Bytes} {loc : Nat}
    (h : makeHeaderAt env fs full buf loc = .ok out) : ∃ n, fs full = some n ∧ ∀ m, n ≠ .other m := by
  unfold makeHeaderAt at h
  cases hf : fs full with
  | none =>
    have : tarentryCtor fs.lstat full 0 = .error (.exit 1) := by unfold tarentryCtor FS.lstat; rw [hf]; rfl
    rw [this] at h; cases h
  | some n =>
    refine ⟨n, rfl, ?_⟩
    rintro m rfl
    have : tarentryCtor fs.lstat full 0 = .ok ⟨0, ⟨.other, m.perm, m.uid, m.gid, 0, m.mtime⟩, full, []⟩ := by
      unfold tarentryCtor FS.lstat; rw [hf]; rfl
    rw [this] at h
    change (makeTarHeader env _).bind _ = _ at h
    cases hh : makeTarHeader env ⟨0, ⟨.other, m.perm, m.uid, m.gid, 0, m.mtime⟩, full, []⟩ with
    | error e => rw [hh] at h; cases h
    | ok b =>
      obtain ⟨_, hd, _, h2, _⟩ := makeTarHeader_shape hh
      unfold ustarBlock at h2
      rw [if_pos rfl] at h2
      cases h2

theorem moveOne_present {env : Env} {fs : FS} {base : Bytes} {start : Nat} {buf out : Bytes} {w : WOrder}
    (h : moveOne env fs base start buf w = .ok out) :
    (w.hdr ≠ 0 → ∃ n, fs (fullName base w.rel) = some n ∧ ∀ m, n ≠ .other m) ∧
    (w.size ≠ 0 → ∃ m c, fs (fullName base w.rel) = some (.reg m c)) := by
  unfold moveOne at h
  split at h
  · cases h
  · rename_i buf1 h1
    refine ⟨?_, ?_⟩
    · intro hw
      rw [if_pos hw] at h1
      exact header_present h1
    · intro hw
      rw [if_pos hw] at h
      unfold readInto at h
      cases hr : fs.read (fullName base w.rel) with
      | none => rw [hr] at h; cases h
      | some d =>
        unfold FS.read at hr
        split at hr
        · exact ⟨_, _, by assumption⟩
        · cases hr

/-- **C64** Whatever has become of the tree since it was scanned: if rank 0 ends with status 0, every
object that was scanned was still there when the workers came to it - something is at its path, of a
kind that can be archived - and what was a non-empty regular file is still a regular file.  (So when
something has been removed, or replaced by a device or socket, in the meantime, no run ends with
status 0.) -/
theorem C64_success_means_present {cfg : Cfg} {fs0 : FS} {base : Bytes} {root : FNode} {S : StdSort Ref} {g : Bytes → UInt8}
    {b mx : Nat} {coll : Coll} {bundles : List (List Order)} {archive : Bytes} {eager : Bool} {file0 : Option Bytes}
    {tr : List Ev} {s : Sys} (j : Job cfg.env fs0 base root S g b mx coll bundles) (hl : Launchable cfg b archive)
    (h : CreateRun cfg eager b archive base (bundles.map printBundle) file0 tr s) (hb : s.boss = .exit 0)
    {p : List Bytes} {n : FNode} (hseen : Seen root p n) (hd : describe p n ≠ none) :
    ∃ n', cfg.fs (base ++ [47] ++ pathText p) = some n' ∧ (∀ m, n' ≠ .other m) ∧
      (∀ m content, n = .reg m content → content ≠ [] → ∃ m' content', n' = .reg m' content') := by
  have hL : Launch cfg b archive base (bundles.map printBundle) := by
    have := job_launch (cfg := { cfg with fs := fs0 }) (archive := archive) j ⟨hl.ranks, hl.ranksInt, hl.bucketInt, hl.archiveText⟩
    exact ⟨this.ranks, this.ranksInt, this.bucket, this.bucketInt, this.archiveText, this.baseText, this.orderText⟩
  obtain ⟨W, hperm, hw, _⟩ := run_worked hL h hb
  obtain ⟨hok, ⟨path, node, H, m, hE⟩, hr⟩ := j.setup
  obtain ⟨hflat, hs, hhdr, hnd, _, _⟩ := plan_flat hok j.planned
  -- the object was planned
  have hrefs : (setOffsets (orderFiles S coll)).all.map Placed.ref =
      (orderFiles S coll).dirs ++ (orderFiles S coll).files := by
    rw [setOffsets_all, placeFrom_refs]
  obtain ⟨e, hde⟩ := Option.ne_none_iff_exists'.1 hd
  obtain ⟨c', h', hex, _⟩ := C07_scan_exact g base root j.tree.isDir j.tree.treeOk j.luck
  rw [j.scanned] at h'
  have := Except.ok.inj h'
  subst this
  obtain ⟨r, hr', hre⟩ := List.mem_map.1 ((hex e).2 ⟨p, n, hseen, hde⟩)
  have hpm : ((orderFiles S coll).dirs ++ (orderFiles S coll).files).Perm (coll.dirs ++ coll.files) :=
    List.Perm.append_left _ (C09_order_files S coll).2.1
  have hr2 := hpm.mem_iff.2 hr'
  rw [← hrefs] at hr2
  obtain ⟨q, hq, hqr⟩ := List.mem_map.1 hr2
  have hE' := hE q hq
  have hrel : e.rel = pathText p := by cases n <;> simp [describe] at hde <;> rw [← hde]
  have hfull : fullName base q.ref.ent.rel = base ++ [47] ++ pathText p := by
    rw [hE'.full]
    have : q.ref.ent.rel = pathText (path q) := by
      have hd' := hE'.desc
      cases hn : node q <;> rw [hn] at hd' <;> simp [describe] at hd' <;> rw [← hd']
    rw [← this, hqr, hre, hrel]
  -- its first order
  obtain ⟨o, ho, h1, h2, h3⟩ : ∃ o ∈ bundles.flatten, o.rel = q.ref.ent.rel ∧ o.hdr ≠ 0 ∧ (q.ref.ent.size ≠ 0 → ∃ o' ∈ bundles.flatten,
      o'.rel = q.ref.ent.rel ∧ o'.size ≠ 0) := by
    have hh := hhdr q hq
    obtain ⟨s1, s2, s3⟩ := hs q hq
    have hin : ∀ x ∈ frags 0 b q, x ∈ bundles.flatten := by
      intro x hx; rw [hflat]; exact List.mem_flatMap.2 ⟨q, hq, hx⟩
    unfold frags at hin
    split at hin
    · have hm := hin _ (List.mem_singleton_self _)
      refine ⟨_, hm, rfl, ?_, fun hz => ⟨_, hm, rfl, ?_⟩⟩
      · show q.slice.hdr ≠ 0; omega
      · show q.slice.size ≠ 0; omega
    · rename_i hgt
      have hm := hin _ List.mem_cons_self
      refine ⟨_, hm, rfl, ?_, fun hz => ?_⟩
      · show q.ref.hdr ≠ 0; omega
      · have hx : restFrags 0 b q.ref.ent (q.ref.hdr + q.ref.ent.size - b) (q.slice.offArch + b) (usub64 b q.ref.hdr) ≠ [] →
          ∃ o' ∈ restFrags 0 b q.ref.ent (q.ref.hdr + q.ref.ent.size - b) (q.slice.offArch + b) (usub64 b q.ref.hdr),
            o'.rel = q.ref.ent.rel ∧ o'.size ≠ 0 := by
          rw [restFrags]
          split
          · intro _; exact ⟨_, List.mem_cons_self, rfl, by show b ≠ 0; omega⟩
          · split
            · intro _; exact ⟨_, List.mem_singleton_self _, rfl, by show q.ref.hdr + q.ref.ent.size - b ≠ 0; omega⟩
            · intro h; exact absurd rfl h
        obtain ⟨o', h4, h5⟩ := hx (by
          rw [restFrags]
          split
          · simp
          · rw [if_pos (by omega)]; simp)
        exact ⟨o', hin _ (List.mem_cons_of_mem _ h4), h5⟩
  have key : ∀ o ∈ bundles.flatten, (o.hdr ≠ 0 → ∃ n, cfg.fs (fullName base o.rel) = some n ∧ ∀ m, n ≠ .other m) ∧
      (o.size ≠ 0 → ∃ m c, cfg.fs (fullName base o.rel) = some (.reg m c)) := by
    intro o ho
    obtain ⟨l, hlm, hol⟩ := List.mem_flatten.1 ho
    have hx : printBundle l ∈ W.map Prod.fst := hperm.mem_iff.2 (List.mem_map.2 ⟨l, hlm, rfl⟩)
    obtain ⟨x, hxW, hxl⟩ := List.mem_map.1 hx
    obtain ⟨_, hwork⟩ := hw x hxW
    rw [hxl] at hwork
    have hsub : ∀ o ∈ l, o ∈ bundles.flatten := fun o ho => List.mem_flatten.2 ⟨l, hlm, ho⟩
    have hmsg := hr.msg l hlm
    have hpar := (C17_roundtrip_partial l (fun o ho => hr.noTab o (hsub o ho))
      (fun o ho => hr.noNul o (hsub o ho))
      (fun o ho => hr.small o (hsub o ho)) (by omega)).2
    have hrec := job_received (cfg := { cfg with fs := fs0 }) j l hlm
    unfold received at hrec
    rw [hrec] at hpar
    unfold workerDo at hwork
    rw [hpar] at hwork
    change (totalSize _).bind _ = _ at hwork
    cases ht : totalSize (l.map asReceived) with
    | error e => rw [ht] at hwork; cases hwork
    | ok v =>
      rw [ht] at hwork
      change (orderNFilename _ 0).bind _ = _ at hwork
      cases hz : orderNFilename (l.map asReceived) 0 with
      | error e => rw [hz] at hwork; cases hwork
      | ok v =>
        rw [hz] at hwork
        change moveData cfg.env cfg.fs base x.2.1 (l.map asReceived) = _ at hwork
        unfold moveData at hwork
        split at hwork
        · split at hwork
          · cases hwork
          · rename_i hloop
            obtain ⟨b1, b2, hone⟩ := moveLoop_each _ _ _ hloop (asReceived o) (List.mem_map.2 ⟨o, hol, rfl⟩)
            exact moveOne_present hone
        · cases hwork
  obtain ⟨n', hn1, hn2⟩ := (key o ho).1 h2
  rw [h1, hfull] at hn1
  refine ⟨n', hn1, hn2, ?_⟩
  rintro m0 content rfl hne
  have hsz : q.ref.ent.size ≠ 0 := by
    simp only [describe, Option.some.injEq] at hde
    rw [hqr, hre, ← hde]
    exact fun h => hne (List.length_eq_zero_iff.1 h)
  obtain ⟨o', ho', h5, h6⟩ := h3 hsz
  obtain ⟨m', c', h7⟩ := (key o' ho').2 h6
  rw [h5, hfull, hn1] at h7
  exact ⟨m', c', Option.some.inj h7⟩


/-! ### sizes may change within the last block -/

section
variable {cfg : Cfg} {fs0 : FS} {base : Bytes} {root : FNode} {S : StdSort Ref} {g : Bytes → UInt8}
  {b mx : Nat} {coll : Coll} {bundles : List (List Order)} {archive : Bytes} {eager : Bool} {file0 : Option Bytes}
  {tr : List Ev} {s : Sys}

/-- No file of a job has 4 GiB. -/
theorem job_sizes (j : Job cfg.env fs0 base root S g b mx coll bundles) :
    ∀ q ∈ (setOffsets (orderFiles S coll)).all, q.ref.ent.size < 2 ^ 32 := by
  obtain ⟨hok, _, _⟩ := j.setup
  have h11 := C11_every_byte_once 0 b mx (orderFiles S coll) bundles hok j.planned
  have hrefs : (setOffsets (orderFiles S coll)).all.map Placed.ref =
      (orderFiles S coll).dirs ++ (orderFiles S coll).files := by
    rw [setOffsets_all, placeFrom_refs]
  intro q hq
  by_cases h0 : q.ref.ent.size = 0
  · omega
  · have hcnt := (h11.1 q.ref (by rw [← hrefs]; exact List.mem_map.2 ⟨q, hq, rfl⟩)).2 (q.ref.ent.size - 1)
    rw [if_pos (by omega)] at hcnt
    obtain ⟨o, ho, hmv⟩ := List.countP_pos_iff.1 (Nat.lt_of_lt_of_eq Nat.one_pos hcnt.symm)
    have hmv' := hmv
    simp [Moves] at hmv'
    have hst := j.small o ho
    unfold FitsInt at hst
    omega

/-- Every object that was seen has its entry in the plan. -/
theorem job_entry (j : Job cfg.env fs0 base root S g b mx coll bundles) {p : List Bytes} {n : FNode}
    (hs : Seen root p n) (hd : describe p n ≠ none) {path : Placed → List Bytes} {node : Placed → FNode}
    {H : Placed → Bytes} {m : Placed → Member}
    (hE : ∀ q ∈ (setOffsets (orderFiles S coll)).all, Entry cfg.env fs0 base root q (path q) (node q) (H q) (m q)) :
    ∃ q ∈ (setOffsets (orderFiles S coll)).all, path q = p ∧ describe p n = some q.ref.ent := by
  have hrefs : (setOffsets (orderFiles S coll)).all.map Placed.ref =
      (orderFiles S coll).dirs ++ (orderFiles S coll).files := by
    rw [setOffsets_all, placeFrom_refs]
  obtain ⟨e, hd⟩ := Option.ne_none_iff_exists'.1 hd
  obtain ⟨c', h', hex, _⟩ := C07_scan_exact g base root j.tree.isDir j.tree.treeOk j.luck
  rw [j.scanned] at h'
  have := Except.ok.inj h'
  subst this
  obtain ⟨r, hr', hre⟩ := List.mem_map.1 ((hex e).2 ⟨p, n, hs, hd⟩)
  have hpm : ((orderFiles S coll).dirs ++ (orderFiles S coll).files).Perm (coll.dirs ++ coll.files) :=
    List.Perm.append_left _ (C09_order_files S coll).2.1
  have hr2 := hpm.mem_iff.2 hr'
  rw [← hrefs] at hr2
  obtain ⟨q, hq, hqr⟩ := List.mem_map.1 hr2
  have hp : path q = p := by
    apply pathText_inj (at_nameOk (seen_at (hE q hq).seen) j.tree.treeOk) (at_nameOk (seen_at hs) j.tree.treeOk)
    have h1 : q.ref.ent.rel = pathText (path q) := by
      have hd' := (hE q hq).desc
      cases hn : node q <;> rw [hn] at hd' <;> simp [describe] at hd' <;> rw [← hd']
    rw [← h1, hqr, hre]
    cases n <;> simp [describe] at hd <;> rw [← hd]
  exact ⟨q, hq, hp, by rw [hd, hqr, hre]⟩

/-- The objects of a job, with what is there now. -/
theorem any_setup (j : Job cfg.env fs0 base root S g b mx coll bundles)
    (hnow : ∀ p n, Seen root p n → describe p n ≠ none →
      ∃ n', cfg.fs (base ++ [47] ++ pathText p) = some n' ∧ Changed n n' ∧ MetaOk cfg.env (metaOf n')) :
    (∃ (path : Placed → List Bytes) (node now : Placed → FNode) (H : Placed → Bytes),
      ∀ q ∈ (setOffsets (orderFiles S coll)).all, AnyEntry cfg.env cfg.fs base root q (path q) (node q) (now q) (H q)) ∧
    Runnable cfg.env cfg.fs base b bundles (endPos 0 (setOffsets (orderFiles S coll)).all) := by
  obtain ⟨hok, ⟨path, node, H0, m0, hE⟩, hr⟩ := j.setup
  obtain ⟨hflat, hs, hhdr, _, _, _⟩ := plan_flat hok j.planned
  have hsz := job_sizes j
  have hex : ∀ q : Placed, ∃ (n' : FNode) (H : Bytes), q ∈ (setOffsets (orderFiles S coll)).all →
      AnyEntry cfg.env cfg.fs base root q (path q) (node q) n' H := by
    intro q
    by_cases hq : q ∈ (setOffsets (orderFiles S coll)).all
    · have he := hE q hq
      obtain ⟨n', h1, h2, h3⟩ := hnow _ _ he.seen (by rw [he.desc]; simp)
      obtain ⟨H, h4⟩ := any_entry j.tree he (hsz q hq) h1 h2 h3
      exact ⟨n', H, fun _ => h4⟩
    · exact ⟨.other ⟨0, 0, 0, 0⟩, [], fun h => absurd h hq⟩
  choose now H hN using hex
  refine ⟨⟨path, node, now, H, fun q hq => hN q hq⟩, ⟨hr.ne, hr.nonempty, hr.chain, hr.fits, hr.small, hr.msg, hr.noTab, hr.noNul, ?_⟩⟩
  intro o ho
  have h1 := j.small o ho
  unfold FitsInt at h1
  rw [hflat] at ho
  obtain ⟨q, hq, hf⟩ := List.mem_flatMap.1 ho
  have hsp := frags_spec 0 b q (hs q hq) (hhdr q hq).2 o hf
  exact (now_load (hN q hq) hsp.2.1 hsp.2.2.2.2.1 hsp.2.2.2.2.2.1 (by omega)).2

/-- The objects of a job, each taking as many blocks as before. -/
theorem now_setup (j : Job cfg.env fs0 base root S g b mx coll bundles)
    (hnow : ∀ p n, Seen root p n → describe p n ≠ none →
      ∃ n', cfg.fs (base ++ [47] ++ pathText p) = some n' ∧ Alike n n' ∧ MetaOk cfg.env (metaOf n')) :
    (∃ (path : Placed → List Bytes) (node now : Placed → FNode) (H : Placed → Bytes),
      ∀ q ∈ (setOffsets (orderFiles S coll)).all, NowEntry cfg.env cfg.fs base root q (path q) (node q) (now q) (H q)) ∧
    Runnable cfg.env cfg.fs base b bundles (endPos 0 (setOffsets (orderFiles S coll)).all) := by
  obtain ⟨hok, ⟨path0, node0, H0, m0, hE⟩, _⟩ := j.setup
  have hsz := job_sizes j
  have hrn := (any_setup j (fun p n hs hd => by
    obtain ⟨n', h1, h2, h3⟩ := hnow p n hs hd
    obtain ⟨q, hq, hqp, hqn⟩ := job_entry j hs hd hE
    refine ⟨n', h1, alike_changed h2 ?_, h3⟩
    have h4 := hsz q hq
    cases n <;> simp [describe] at hqn <;> rw [← hqn] at h4 <;> first | exact h4 | simp [contentOf])).2
  refine ⟨?_, hrn⟩
  have hex : ∀ q : Placed, ∃ (n' : FNode) (H : Bytes), q ∈ (setOffsets (orderFiles S coll)).all →
      NowEntry cfg.env cfg.fs base root q (path0 q) (node0 q) n' H := by
    intro q
    by_cases hq : q ∈ (setOffsets (orderFiles S coll)).all
    · have he := hE q hq
      obtain ⟨n', h1, h2, h3⟩ := hnow _ _ he.seen (by rw [he.desc]; simp)
      obtain ⟨H, h4⟩ := now_entry j.tree he (hsz q hq) h1 h2 h3
      exact ⟨n', H, fun _ => h4⟩
    · exact ⟨.other ⟨0, 0, 0, 0⟩, [], fun h => absurd h hq⟩
  choose now H hN using hex
  exact ⟨path0, node0, now, H, fun q hq => hN q hq⟩

/-- The archive, read. -/
theorem now_archive (j : Job cfg.env fs0 base root S g b mx coll bundles)
    (hnow : ∀ p n, Seen root p n → describe p n ≠ none →
      ∃ n', cfg.fs (base ++ [47] ++ pathText p) = some n' ∧ Alike n n' ∧ MetaOk cfg.env (metaOf n'))
    (xs : List Task) (hxs : Carried cfg.env cfg.fs base b bundles xs) (ws : List WriteReq)
    (hws : ws.Perm (xs.map Task.write)) :
    ∃ (ms : List Member) (objs : List (List Bytes × FNode)),
      readArchive (writeAll ws) = some ms ∧
      ms.map some = objs.map (fun x => memberOf cfg.env base x.1 x.2) ∧
      (objs.map Prod.fst).Nodup ∧
      (∀ p, p ∈ objs.map Prod.fst ↔ ∃ n, Seen root p n ∧ describe p n ≠ none) ∧
      (∀ p st, (p, st) ∈ objs → ∃ n n', Seen root p n ∧ cfg.fs (base ++ [47] ++ pathText p) = some n' ∧ Stored n n' st) := by
  obtain ⟨⟨path, node, now, H, hN⟩, hr⟩ := now_setup j hnow
  obtain ⟨hok, _, _⟩ := j.setup
  obtain ⟨hlen, hA, _, _⟩ := run_all hr xs hxs ws hws
  obtain ⟨hflat, hs, hhdr, hnd, hcont, _⟩ := plan_flat hok j.planned
  generalize writeAll ws = A at *
  -- the bytes that follow each header
  let D : Placed → Bytes := fun q => (A.drop (q.slice.offArch + q.ref.hdr)).take (contentOf (now q)).length
  have hdoff : ∀ (ps : List Placed) (w : Nat), w % 512 = 0 → Contiguous w ps →
      (∀ q ∈ ps, q.ref.hdr % 512 = 0) → ∀ q ∈ ps, q.slice.offArch % 512 = 0 ∧ q.slice.offArch + q.ref.hdr + pad512 q.ref.ent.size ≤ endPos w ps := by
    intro ps
    induction ps with
    | nil => intro w _ _ _ q hq; simp at hq
    | cons x ps ih =>
      intro w hw hc hh q hq
      simp only [Contiguous] at hc
      have hle : ∀ (l : List Placed) (v : Nat), v ≤ endPos v l := by
        intro l
        induction l with
        | nil => intro v; simp [endPos]
        | cons q l ihl =>
          intro v; simp only [endPos]
          have := ihl (up512 (v + q.ref.hdr + q.ref.ent.size))
          have := le_up512 (v + q.ref.hdr + q.ref.ent.size)
          omega
      rcases List.mem_cons.1 hq with rfl | hq
      · have h1 := hh q (by simp)
        refine ⟨by rw [hc.1]; exact hw, ?_⟩
        simp only [endPos]
        have h2 := hle ps (up512 (w + q.ref.hdr + q.ref.ent.size))
        have h3 : up512 (w + q.ref.hdr + q.ref.ent.size) = w + q.ref.hdr + pad512 q.ref.ent.size := by
          unfold up512 pad512; omega
        rw [hc.1]; omega
      · exact ih _ (up512_mod _) hc.2 (fun y hy => hh y (by simp [hy])) q hq
  have hh512 : ∀ q ∈ (setOffsets (orderFiles S coll)).all, q.ref.hdr % 512 = 0 := by
    intro q hq
    obtain ⟨e, _, h⟩ := (hN q hq).made
    have := C01_header_length cfg.env e (H q) h
    rw [(hN q hq).hlen] at this
    omega
  have hDl : ∀ q ∈ (setOffsets (orderFiles S coll)).all, (D q).length = (contentOf (now q)).length := by
    intro q hq
    have h1 := (hdoff _ 0 (by omega) hcont hh512 q hq).2
    have h2 := (hN q hq).blocks
    have h3 : (contentOf (now q)).length ≤ pad512 (contentOf (now q)).length := by unfold pad512; omega
    simp only [D, List.length_take, List.length_drop]
    omega
  have hHold : ∀ q ∈ (setOffsets (orderFiles S coll)).all, Holds A q.slice.offArch (H q ++ (contentOf (now q)).take q.ref.ent.size) :=
    fun q hq => now_holds hok j.planned j.small A hA hq (hN q hq).toAnyEntry
  have hmem : ∀ q : Placed, ∃ m : Member, q ∈ (setOffsets (orderFiles S coll)).all →
      memberOf cfg.env base (path q) (withData (now q) (D q)) = some m ∧
      ∀ padding rest : Bytes, (D q).length + padding.length = pad512 (D q).length →
        readMember (H q ++ (D q ++ (padding ++ rest))) = some (m, rest) := by
    intro q
    by_cases hq : q ∈ (setOffsets (orderFiles S coll)).all
    · have hpl : (D q).length ≤ pad512 (D q).length := by unfold pad512; omega
      obtain ⟨m, h1, _⟩ := (hN q hq).reads (D q) (zeros (pad512 (D q).length - (D q).length)) [] (hDl q hq)
        (by unfold zeros; rw [List.length_replicate]; omega)
      refine ⟨m, fun _ => ⟨h1, ?_⟩⟩
      intro padding rest hp
      obtain ⟨m', h3, h4⟩ := (hN q hq).reads (D q) padding rest (hDl q hq) hp
      rw [h1] at h3
      rw [Option.some.inj h3]
      exact h4
    · exact ⟨⟨[], 0, [], 0, 0, 0, 0, [], [], 0, []⟩, fun h => absurd h hq⟩
  choose m hm using hmem
  have hread := readArchive_placed (env := cfg.env) A m H D (setOffsets (orderFiles S coll)).all 0 hcont hlen (by omega) (by
    intro q hq
    have he := hN q hq
    refine ⟨he.hlen, by rw [hDl q hq]; exact he.blocks, ?_, ?_, (hm q hq).2⟩
    · rw [holds_append]
      refine ⟨(holds_append.1 (hHold q hq)).1, ?_⟩
      unfold Holds
      rw [he.hlen, hDl q hq]
    · obtain ⟨e, _, h⟩ := he.made; exact ⟨e, h⟩)
  rw [List.drop_zero] at hread
  have hrel : ∀ q ∈ (setOffsets (orderFiles S coll)).all, q.ref.ent.rel = pathText (path q) := by
    intro q hq
    have hd := (hN q hq).desc
    cases hn : node q <;> rw [hn] at hd <;> simp [describe] at hd <;> rw [← hd]
  have hname : ∀ q ∈ (setOffsets (orderFiles S coll)).all, ∀ x ∈ path q, NameOk x := fun q hq =>
    at_nameOk (seen_at (hN q hq).seen) j.tree.treeOk
  have hrefs : (setOffsets (orderFiles S coll)).all.map Placed.ref =
      (orderFiles S coll).dirs ++ (orderFiles S coll).files := by
    rw [setOffsets_all, placeFrom_refs]
  refine ⟨_, (setOffsets (orderFiles S coll)).all.map (fun q => (path q, withData (now q) (D q))), hread, ?_, ?_, ?_, ?_⟩
  · rw [List.map_map, List.map_map]
    apply List.map_congr_left
    intro q hq
    exact ((hm q hq).1).symm
  · rw [List.map_map]
    have : (setOffsets (orderFiles S coll)).all.map (fun p => p.ref.ent.rel) =
        ((setOffsets (orderFiles S coll)).all.map (Prod.fst ∘ fun q => (path q, withData (now q) (D q)))).map pathText := by
      rw [List.map_map]
      exact List.map_congr_left hrel
    rw [this] at hnd
    exact hnd.of_map
  · intro p
    rw [List.map_map]
    constructor
    · intro h
      obtain ⟨q, hq, rfl⟩ := List.mem_map.1 h
      have he := hN q hq
      exact ⟨node q, he.seen, by show describe (path q) (node q) ≠ none; rw [he.desc]; simp⟩
    · rintro ⟨n, hseen, hne⟩
      obtain ⟨e, hd⟩ := Option.ne_none_iff_exists'.1 hne
      obtain ⟨c', h', hex, _⟩ := C07_scan_exact g base root j.tree.isDir j.tree.treeOk j.luck
      rw [j.scanned] at h'
      have := Except.ok.inj h'
      subst this
      obtain ⟨r, hr', hre⟩ := List.mem_map.1 ((hex e).2 ⟨p, n, hseen, hd⟩)
      have hpm : ((orderFiles S coll).dirs ++ (orderFiles S coll).files).Perm (coll.dirs ++ coll.files) :=
        List.Perm.append_left _ (C09_order_files S coll).2.1
      have hr2 := hpm.mem_iff.2 hr'
      rw [← hrefs] at hr2
      obtain ⟨q, hq, hqr⟩ := List.mem_map.1 hr2
      refine List.mem_map.2 ⟨q, hq, ?_⟩
      show path q = p
      apply pathText_inj (hname q hq) (at_nameOk (seen_at hseen) j.tree.treeOk)
      rw [← hrel q hq, hqr, hre]
      cases n <;> simp [describe] at hd <;> rw [← hd]
  · intro p st hst
    obtain ⟨q, hq, heq⟩ := List.mem_map.1 hst
    obtain ⟨rfl, rfl⟩ := Prod.mk.inj heq
    have he := hN q hq
    refine ⟨node q, now q, he.seen, he.there, ?_⟩
    have hal := he.alike
    have hol := he.olen
    have hDq := hDl q hq
    -- the bytes up to the scanned size are right
    have hpre : (D q).take q.ref.ent.size = (contentOf (now q)).take q.ref.ent.size := by
      have h1 := (holds_append.1 (hHold q hq)).2
      unfold Holds at h1
      rw [he.hlen, List.length_take] at h1
      simp only [D]
      rw [List.take_take, h1]
    cases hn : node q <;> cases hn' : now q <;> rw [hn, hn'] at hal <;> simp only [Alike] at hal <;> try exact hal.elim
    · rw [hn] at hol
      rw [hn'] at hpre hDq
      simp only [contentOf] at hol hpre hDq
      exact ⟨D q, rfl, hDq, by rw [hol]; exact hpre⟩
    · simp only [Stored, withData]
    · simp only [Stored, withData]

/-- **C64 (partial)** Files may change while they wait to be copied, as long as each still takes the
same number of 512-byte blocks; directories may gain or lose entries that were not scanned; links may
point elsewhere (short targets); permissions, owners and times may change.  Then every run can be
continued until all processes have ended normally, and the archive reads as one member for each scanned
object: the object as it is now - except that of a file that has become longer only the bytes up to its
old size are sure to be right.  In particular no change of one object damages the member of another.
Missing: files that need more or fewer blocks (`C64_grown_file_hides_others`), and changes while the
workers are at work. -/
theorem C64_same_blocks_partial (j : Job cfg.env fs0 base root S g b mx coll bundles) (hl : Launchable cfg b archive)
    (hr2 : 2 ≤ cfg.ranks) (hc : cfg.creatable = true)
    (hnow : ∀ p n, Seen root p n → describe p n ≠ none →
      ∃ n', cfg.fs (base ++ [47] ++ pathText p) = some n' ∧ Alike n n' ∧ MetaOk cfg.env (metaOf n'))
    (h : CreateRun cfg true b archive base (bundles.map printBundle) none tr s) :
    (∃ more s', CreateRun cfg true b archive base (bundles.map printBundle) none (tr ++ more) s' ∧ Finished cfg 0 s') ∧
    (Stuck cfg s → Finished cfg 0 s ∧
      ∃ (A : Bytes) (ms : List Member) (objs : List (List Bytes × FNode)),
        s.file = some A ∧ readArchive A = some ms ∧
        ms.map some = objs.map (fun x => memberOf cfg.env base x.1 x.2) ∧
        (objs.map Prod.fst).Nodup ∧
        (∀ p, p ∈ objs.map Prod.fst ↔ ∃ n, Seen root p n ∧ describe p n ≠ none) ∧
        (∀ p st, (p, st) ∈ objs → ∃ n n', Seen root p n ∧ cfg.fs (base ++ [47] ++ pathText p) = some n' ∧ Stored n n' st)) := by
  have hL : Launch cfg b archive base (bundles.map printBundle) := by
    have := job_launch (cfg := { cfg with fs := fs0 }) (archive := archive) j ⟨hl.ranks, hl.ranksInt, hl.bucketInt, hl.archiveText⟩
    exact ⟨this.ranks, this.ranksInt, this.bucket, this.bucketInt, this.archiveText, this.baseText, this.orderText⟩
  obtain ⟨_, hrun⟩ := now_setup j hnow
  have hrec : ∀ l ∈ bundles, received l = printBundle l := fun l hlm => job_received (cfg := { cfg with fs := fs0 }) j l hlm
  have hW : Workable cfg b base (bundles.map printBundle) := by
    intro t ht memory hm
    obtain ⟨l, hlm, rfl⟩ := List.mem_map.1 ht
    obtain ⟨d, hd, _⟩ := run_bundle hrun l hlm memory hm
    rw [hrec l hlm] at hd
    exact ⟨_, hd⟩
  have hn1 : ∀ tr s, CreateRun cfg true b archive base (bundles.map printBundle) none tr s → s.boss ≠ .exit 1 := by
    intro tr s h hb
    have := (C25_outcome hL h).2 hb
    simp [openResult, hc] at this
  refine ⟨?_, ?_⟩
  · obtain ⟨more, s', h2, h3⟩ := C25_reaches_end hL hW hr2 h
    rcases h3 with h3 | h3
    · exact ⟨more, s', h2, h3⟩
    · exact absurd h3.1 (hn1 _ _ h2)
  · intro hs
    have hf : Finished cfg 0 s := by
      rcases C25_no_deadlock hL hW hr2 h with h0 | h1 | ⟨e, s', hst⟩
      · exact h0
      · exact absurd h1.1 (hn1 _ _ h)
      · exact absurd hst.eager (hs e s')
    refine ⟨hf, ?_⟩
    obtain ⟨W, hperm, hw, hfile⟩ := run_worked hL h hf.1
    obtain ⟨B', hB1, hB2⟩ := perm_of_map_perm printBundle hperm.symm bundles rfl
    obtain ⟨xs, hx1, hx2⟩ := tasks_of B' W hB2
    obtain ⟨zs, hz1, hz2⟩ := perm_of_map_perm Task.bundle hB1 xs hx1
    have hcar : Carried cfg.env cfg.fs base b bundles zs := by
      refine ⟨hz2, ?_⟩
      intro z hz
      have hzx : z ∈ xs := hz1.mem_iff.1 hz
      have hmem : (printBundle z.bundle, z.memory, z.write) ∈ W := by
        rw [← hx2]; exact List.mem_map.2 ⟨z, hzx, rfl⟩
      obtain ⟨h1, h2⟩ := hw _ hmem
      have hzb : z.bundle ∈ bundles := by rw [← hz2]; exact List.mem_map.2 ⟨z, hz, rfl⟩
      exact ⟨h1, by rw [hrec _ hzb]; exact h2⟩
    have hws : (W.map fun x => x.2.2).Perm (zs.map Task.write) := by
      have : W.map (fun x => x.2.2) = xs.map Task.write := by
        rw [← hx2, List.map_map]; rfl
      rw [this]
      exact (hz1.map _).symm
    obtain ⟨ms, objs, h1, h2⟩ := now_archive j hnow zs hcar _ hws
    exact ⟨_, ms, objs, hfile, h1, h2⟩

end

/-! ### a file that grows takes others with it -/

/-- The directory `/t` with a file `a` of one byte and a file `b` of three bytes. -/
def growTree : FNode :=
  .dir ⟨493, 0, 0, 0⟩ true (.cons [97] (.reg ⟨420, 0, 0, 0⟩ [120]) (.cons [98] (.reg ⟨420, 0, 0, 0⟩ [49, 50, 51]) .nil))

/-- What the workers find: in the meantime `a` has 1200 bytes. -/
def growFs : FS := fun path =>
  if path = [47, 116, 47] then some growTree
  else if path = [47, 116, 47, 97] then some (.reg ⟨420, 0, 0, 0⟩ (List.replicate 1200 120))
  else if path = [47, 116, 47, 98] then some (.reg ⟨420, 0, 0, 0⟩ [49, 50, 51])
  else none

def growColl : Coll := match scan (fun _ => 0) [47, 116] growTree with | .ok c => c | .error _ => ⟨[], []⟩

def growBundles : List (List Order) :=
  (createOrders 0 4992000 7 (setOffsets (orderFiles demoSort2 growColl))).getD []

theorem grow_scanned : scan (fun _ => 0) [47, 116] growTree = .ok growColl ∧
    createOrders 0 4992000 7 (setOffsets (orderFiles demoSort2 growColl)) = some growBundles := by
  constructor <;> decide +kernel

/-- The three orders as the worker gets them. -/
def growOrders : List WOrder :=
  [⟨0, [], 68, [], 0, 512, 0, 0⟩, ⟨0, [97], 70, [], 1, 512, 512, 0⟩, ⟨0, [98], 70, [], 3, 512, 1536, 0⟩]

theorem grow_parsed : growBundles.map printBundle = [printBundle (growBundles.headD [])] ∧
    parseOrders (printBundle (growBundles.headD [])) = .ok growOrders := by
  decide +kernel

def growEntry : TarEntry := ⟨0, ⟨.reg, 420, 0, 0, 1200, 0⟩, [47, 116, 47, 97], []⟩
def growRoot : TarEntry := ⟨0, ⟨.dir, 493, 0, 0, 4096, 0⟩, [47, 116, 47], []⟩
def headerOf (e : TarEntry) : Bytes := match makeTarHeader demoEnv2 e with | .ok h => h | .error _ => []

theorem grow_headers : makeTarHeader demoEnv2 growRoot = .ok (headerOf growRoot) ∧
    makeTarHeader demoEnv2 growEntry = .ok (headerOf growEntry) ∧ (headerOf growRoot).length = 512 ∧
    (headerOf growEntry).length = 512 ∧
    loadOf demoEnv2 growFs [47, 116] ⟨0, [], 68, [], 0, 512, 0, 0⟩ = headerOf growRoot ∧
    loadOf demoEnv2 growFs [47, 116] ⟨0, [97], 70, [], 1, 512, 512, 0⟩ = headerOf growEntry ++ [120] := by
  refine ⟨?_, ?_, ?_, ?_, ?_, ?_⟩ <;> decide +kernel

/-- Boolean form of `Loads` for orders with a header. -/
def loadsB (env : Env) (fs : FS) (base : Bytes) (w : WOrder) : Bool :=
  let s := loadOf env fs base w
  decide (w.hdr ≤ s.length ∧ s.length ≤ w.hdr + w.size ∧ w.size < 2 ^ 31) &&
  (match tarentryCtor fs.lstat (fullName base w.rel) 0 with
   | .ok e => (match makeTarHeader env e with | .ok h => h == s.take w.hdr | .error _ => false)
   | .error _ => false) &&
  (w.size == 0 || (match fs.read (fullName base w.rel) with
    | some c => s.drop w.hdr == (c.drop w.off).take w.size
    | none => false))

theorem loads_of_B {env : Env} {fs : FS} {base : Bytes} {w : WOrder} (h : loadsB env fs base w = true) :
    Loads env fs base w (loadOf env fs base w) := by
  unfold loadsB at h
  simp only [Bool.and_eq_true, decide_eq_true_eq, Bool.or_eq_true, beq_iff_eq] at h
  obtain ⟨⟨h1, h2⟩, h3⟩ := h
  refine ⟨⟨h1.1, h1.2.1⟩, ?_, ?_, h1.2.2⟩
  · intro _
    cases he : tarentryCtor fs.lstat (fullName base w.rel) 0 with
    | error e => rw [he] at h2; simp at h2
    | ok e =>
      rw [he] at h2
      refine ⟨e, rfl, ?_⟩
      cases hm : makeTarHeader env e with
      | error e => simp [hm] at h2
      | ok hh => simp only [hm, beq_iff_eq] at h2; rw [h2]
  · intro h0
    rcases h3 with h3 | h3
    · exact absurd h3 h0
    · cases hr : fs.read (fullName base w.rel) with
      | none => rw [hr] at h3; simp at h3
      | some c => rw [hr] at h3; exact ⟨c, rfl, by simpa using h3⟩

/-- Whatever is in the worker's memory: the write has 2560 bytes and begins with the header of `/t/` and
the header of `a`, which announces 1200 bytes. -/
theorem grow_work (memory : Bytes) (hm : memory.length = 4992000) :
    ∃ X : Bytes, X.length = 1536 ∧
      workerDo demoEnv2 growFs [47, 116] memory (printBundle (growBundles.headD [])) =
        .ok (0, headerOf growRoot ++ (headerOf growEntry ++ X)) := by
  obtain ⟨_, _, l1, l2, e1, e2⟩ := grow_headers
  obtain ⟨data, h1, h2, h3, _, _⟩ := moveData_loads (env := demoEnv2) (fs := growFs) (base := [47, 116])
    (loadOf demoEnv2 growFs [47, 116]) growOrders memory ⟨0, [], 68, [], 0, 512, 0, 0⟩ ⟨0, [98], 70, [], 3, 512, 1536, 0⟩
    rfl rfl
    (by
      have : ∀ w ∈ growOrders, loadsB demoEnv2 growFs [47, 116] w = true := by decide +kernel
      exact fun w hw => loads_of_B (this w hw))
    (by simp [growOrders, Before]) (by decide) (by
      rw [hm]; decide +kernel)
  have hl : data.length = 2560 := by rw [h2]; decide +kernel
  have a1 := h3 ⟨0, [], 68, [], 0, 512, 0, 0⟩ (by simp [growOrders])
  have a2 := h3 ⟨0, [97], 70, [], 1, 512, 512, 0⟩ (by simp [growOrders])
  rw [e1] at a1
  rw [e2] at a2
  have a3 : data.take 512 = headerOf growRoot := by
    unfold Holds at a1
    rw [l1] at a1
    exact a1
  have a4 : (data.drop 512).take 512 = headerOf growEntry := by
    have := (holds_append.1 a2).1
    unfold Holds at this
    rw [l2] at this
    exact this
  refine ⟨data.drop 1024, by rw [List.length_drop, hl], ?_⟩
  have hd : headerOf growRoot ++ (headerOf growEntry ++ data.drop 1024) = data := by
    rw [← a3, ← a4, show data.drop 1024 = (data.drop 512).drop 512 by rw [List.drop_drop]]
    rw [List.take_append_drop, List.take_append_drop]
  rw [hd]
  unfold workerDo
  rw [grow_parsed.2]
  exact h1

theorem grow_reads (X : Bytes) (hX : X.length = 1536) :
    ∃ m0 m1 : Member, readArchive (headerOf growRoot ++ (headerOf growEntry ++ X)) = some [m0, m1] ∧
      m0.path = [47, 116, 47] ∧ m1.path = [47, 116, 47, 97] ∧ m1.data = X.take 1200 := by
  obtain ⟨h0, h1, l0, l1, _, _⟩ := grow_headers
  have r0 := readMember_header h0 (u := [114]) (g := [103]) rfl rfl (by decide +kernel) (headerOf growEntry ++ X)
  have r1 := readMember_header h1 (u := [114]) (g := [103]) rfl rfl (by decide +kernel) X
  have hp0 : paxPairs growRoot = [] := by decide +kernel
  have hp1 : paxPairs growEntry = [] := by decide +kernel
  rw [hp0] at r0
  rw [hp1] at r1
  have hs0 : (rawOf 0 growRoot.stat growRoot.filename growRoot.linkname [114] [103]).size = 0 := by decide +kernel
  have hs1 : (rawOf 0 growEntry.stat growEntry.filename growEntry.linkname [114] [103]).size = 1200 := by decide +kernel
  have hn0 : (rawOf 0 growRoot.stat growRoot.filename growRoot.linkname [114] [103]).name = [47, 116, 47] := by decide +kernel
  have hn1 : (rawOf 0 growEntry.stat growEntry.filename growEntry.linkname [114] [103]).name = [47, 116, 47, 97] := by decide +kernel
  have t0 : ∃ m0, takeData (rawOf 0 growRoot.stat growRoot.filename growRoot.linkname [114] [103]) [] (headerOf growEntry ++ X) =
      some (m0, headerOf growEntry ++ X) ∧ m0.path = [47, 116, 47] := by
    unfold takeData paxSizeVal
    simp only [List.lookup_nil, hs0]
    rw [if_neg (by omega)]
    exact ⟨_, rfl, hn0⟩
  have t1 : ∃ m1, takeData (rawOf 0 growEntry.stat growEntry.filename growEntry.linkname [114] [103]) [] X = some (m1, []) ∧
      m1.path = [47, 116, 47, 97] ∧ m1.data = X.take 1200 := by
    unfold takeData paxSizeVal
    simp only [List.lookup_nil, hs1]
    rw [if_neg (by omega), List.drop_of_length_le (by rw [hX]; decide)]
    exact ⟨_, rfl, hn1, rfl⟩
  obtain ⟨m0, t0, p0⟩ := t0
  obtain ⟨m1, t1, p1, d1⟩ := t1
  refine ⟨m0, m1, ?_, p0, p1, d1⟩
  rw [readArchive, if_neg]
  · rw [r0, t0]
    simp only
    rw [dif_pos (by simp only [List.length_append, l0]; omega), readArchive, if_neg]
    · rw [r1, t1]
      simp only
      rw [dif_pos (by rw [List.length_append, l1]; simp), readArchive, if_pos (Or.inl rfl)]
    · rintro (h | h)
      · have := congrArg List.length h
        rw [List.length_append, l1] at this; simp at this
      · exact not_zero_block h1 _ h
  · rintro (h | h)
    · have := congrArg List.length h
      rw [List.length_append, l0] at this; simp at this
    · exact not_zero_block h0 _ h

/-- The example on `ranks` processes. -/
def growCfg (ranks : Nat) : Cfg := ⟨ranks, demoEnv2, growFs, true⟩

/-- **C64 (violation)** `parfu archivefile=a /t`, where `/t` has a file `a` of one byte and a file `b` of
three, and `a` has grown to 1200 bytes when the worker comes to it: on any number of processes, whatever
the schedule and the contents of the workers' memory, every run comes to an end with status 0; and the
archive reads without error as two members, `/t/` and `/t/a`: the unchanged file `b` is gone (its header
and its bytes are read as part of `a`). -/
theorem C64_grown_file_hides_others (ranks : Nat) (h2 : 2 ≤ ranks) (hI : ranks < 2 ^ 31) {tr : List Ev} {s : Sys}
    (h : MainRun demoSort2 (fun _ => 0) (fun _ => growTree) 7 [archivefile ++ [61, 97], [47, 116]] (growCfg ranks) true none tr s) :
    (∃ more s', MainRun demoSort2 (fun _ => 0) (fun _ => growTree) 7 [archivefile ++ [61, 97], [47, 116]] (growCfg ranks) true none
      (tr ++ more) s' ∧ Finished (growCfg ranks) 0 s') ∧
    (Stuck (growCfg ranks) s → Finished (growCfg ranks) 0 s) ∧
    (Finished (growCfg ranks) 0 s → ∃ A m0 m1, s.file = some A ∧ readArchive A = some [m0, m1] ∧
      m0.path = [47, 116, 47] ∧ m1.path = [47, 116, 47, 97]) := by
  have hL : Launch (growCfg ranks) 4992000 [97] [47, 116] (growBundles.map printBundle) := by
    refine ⟨by show 1 ≤ ranks; omega, hI, by decide, by decide, by decide, by decide, by decide +kernel⟩
  have hW : Workable (growCfg ranks) 4992000 [47, 116] (growBundles.map printBundle) := by
    intro t ht memory hm
    rw [grow_parsed.1] at ht
    rw [List.mem_singleton.1 ht]
    obtain ⟨X, _, hX⟩ := grow_work memory hm
    exact ⟨_, hX⟩
  have hp : parseArgs [] (defaultOpts 7) [archivefile ++ [61, 97], [47, 116]] = .ok (some ([[47, 116]], ⟨4992000, 7, [97]⟩)) := by
    decide +kernel
  obtain ⟨hsc, hpl⟩ := grow_scanned
  have hst := mainStart_job (S := demoSort2) (g := fun _ => 0) (look := fun _ => growTree) (c := growCfg ranks) (file0 := none)
    (by simp) hp (by decide) hsc hpl
  unfold MainRun at h ⊢
  rw [hst] at h ⊢
  have hn1 : ∀ tr s, CreateRun (growCfg ranks) true 4992000 [97] [47, 116] (growBundles.map printBundle) none tr s →
      s.boss ≠ .exit 1 := by
    intro tr s h hb
    have := (C25_outcome hL h).2 hb
    simp [openResult, growCfg] at this
  refine ⟨?_, ?_, ?_⟩
  · obtain ⟨more, s', h3, h4⟩ := C25_reaches_end hL hW h2 h
    rcases h4 with h4 | h4
    · exact ⟨more, s', h3, h4⟩
    · exact absurd h4.1 (hn1 _ _ h3)
  · intro hs
    rcases C25_no_deadlock hL hW h2 h with h0 | h1 | ⟨e, s', hst⟩
    · exact h0
    · exact absurd h1.1 (hn1 _ _ h)
    · exact absurd hst.eager (hs e s')
  · intro hf
    obtain ⟨W, hperm, hw, hfile⟩ := run_worked hL h hf.1
    rw [grow_parsed.1] at hperm
    have hlen : W.length = 1 := by have := hperm.length_eq; simpa using this
    obtain ⟨x, rfl⟩ := List.length_eq_one_iff.1 hlen
    have hx : x.1 = printBundle (growBundles.headD []) := by
      have := hperm.mem_iff (a := x.1)
      simpa using this
    obtain ⟨hm, hd⟩ := hw x (by simp)
    rw [hx] at hd
    obtain ⟨X, hX, hd'⟩ := grow_work x.2.1 hm
    have heq : x.2.2 = (0, headerOf growRoot ++ (headerOf growEntry ++ X)) := by
      have h' := hd.symm.trans hd'
      simpa using h'
    obtain ⟨m0, m1, r1, r2, r3, _⟩ := grow_reads X hX
    refine ⟨_, m0, m1, ?_, r1, r2, r3⟩
    rw [hfile]
    simp only [List.map_cons, List.map_nil, heq, writeAll_one]

/-! ### concrete cases -/

/-- `demoTree` as it may have been when it was scanned: the file `b` had other bytes, permissions and time. -/
def demoBefore : FNode :=
  match demoTree with
  | .dir m o (.cons a x (.cons b y (.cons c _ r))) => .dir m o (.cons a x (.cons b y (.cons c (.reg ⟨384, 0, 0, 77⟩ [9, 9, 9]) r)))
  | n => n

theorem demoBefore_same : SameShape demoBefore demoTree := by
  simp [demoBefore, demoTree, SameShape, SameKids]

/-- `parfu archivefile=a /t` on the tree that is rewritten after the scan runs to its end, and archives
the new tree. -/
example : ∃ tr s, MainRun demoSort2 (fun _ => 0) (fun _ => demoBefore) 7 [archivefile ++ [61, 97], [47, 116]]
    demoCfg true none tr s ∧ Finished demoCfg 0 s := by
  have h := (C64_same_shape_partial (S := demoSort2) (g := fun _ => 0) (look := fun _ => demoBefore) (mx0 := 7)
    (args := [archivefile ++ [61, 97], [47, 116]]) (c := demoCfg) (t := [47, 116]) (o := ⟨4992000, 7, [97]⟩) (now := demoTree)
    demoBefore_same
    (by unfold ShortArgs; decide) (by decide +kernel) (by decide) (by decide) (by decide) (by decide)
    demo_shortTree (fun _ => rfl) demo_total (by decide) (by decide) rfl Run.nil).1
  obtain ⟨more, s, h1, h2⟩ := h
  exact ⟨_, s, h1, h2⟩

/-- The file system when the workers come: `b` has five bytes instead of three, the link points elsewhere. -/
def laterFs : FS := fun path =>
  if path = demoBase ++ [47, 98] then some (.reg ⟨384, 0, 0, 5⟩ [9, 9, 9, 9, 9])
  else if path = demoBase ++ [47, 100, 47, 108] then some (.lnk ⟨420, 0, 0, 0⟩ [117, 118])
  else demoFs path

theorem later_now : ∀ p n, Seen demoTree p n → describe p n ≠ none →
    ∃ n', laterFs (demoBase ++ [47] ++ pathText p) = some n' ∧ Alike n n' ∧ MetaOk demoEnv2 (metaOf n') := by
  have hm : ∀ m : Meta, m.uid = 0 → m.gid = 0 → 0 ≤ m.mtime → m.mtime < 2 ^ 33 → MetaOk demoEnv2 m := by
    intro m h1 h2 h3 h4
    refine ⟨by omega, by omega, h3, h4, ⟨[114], ?_, by decide, by decide⟩, ⟨[103], ?_, by decide, by decide⟩⟩
    · rw [h1]; rfl
    · rw [h2]; rfl
  intro p n h hd
  have := demo_seen h
  simp only [demoSeen, List.mem_cons, List.not_mem_nil, or_false, Prod.mk.injEq] at this
  rcases this with ⟨rfl, rfl⟩ | ⟨rfl, rfl⟩ | ⟨rfl, rfl⟩ | ⟨rfl, rfl⟩ | ⟨rfl, rfl⟩ | ⟨rfl, rfl⟩ | ⟨rfl, rfl⟩
  · exact ⟨_, rfl, trivial, hm _ rfl rfl (by decide) (by decide)⟩
  · exact ⟨_, rfl, rfl, hm _ rfl rfl (by decide) (by decide)⟩
  · exact ⟨_, rfl, trivial, hm _ rfl rfl (by decide) (by decide)⟩
  · exact ⟨_, rfl, rfl, hm _ rfl rfl (by decide) (by decide)⟩
  · exact ⟨_, rfl, Or.inr ⟨by decide, by decide, by decide⟩, hm _ rfl rfl (by decide) (by decide)⟩
  · exact ⟨_, rfl, trivial, hm _ rfl rfl (by decide) (by decide)⟩
  · exact absurd rfl hd

/-- A run with the changed file system ends with success, and the archive has a member `b` of five bytes. -/
example : ∃ tr s, CreateRun { demoCfg with fs := laterFs } true 102400 [97] demoBase (demoBundles.map printBundle) none tr s ∧
    Finished { demoCfg with fs := laterFs } 0 s := by
  obtain ⟨⟨more, s, h1, h2⟩, _⟩ := C64_same_blocks_partial (cfg := { demoCfg with fs := laterFs }) (fs0 := demoFs) (archive := [97])
    demo_job' ⟨by decide, by decide, by decide, by decide⟩ (by decide) rfl later_now Run.nil
  exact ⟨_, s, h1, h2⟩

/-- A run of the example with the growing file exists. -/
example : ∃ tr s, MainRun demoSort2 (fun _ => 0) (fun _ => growTree) 7 [archivefile ++ [61, 97], [47, 116]] (growCfg 4) true none tr s ∧
    Finished (growCfg 4) 0 s ∧ ∃ A m0 m1, s.file = some A ∧ readArchive A = some [m0, m1] ∧
      m0.path = [47, 116, 47] ∧ m1.path = [47, 116, 47, 97] := by
  obtain ⟨⟨tr, s, h1, h2⟩, _⟩ := C64_grown_file_hides_others 4 (by decide) (by decide) (tr := []) Run.nil
  exact ⟨_, s, h1, h2, (C64_grown_file_hides_others 4 (by decide) (by decide) h1).2.2 h2⟩

end Parfu.Props
