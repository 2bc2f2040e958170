/-
Property theorems C07 and C08: the scan.
-/
import Verif.ScanPrune
set_option autoImplicit false

namespace Parfu.Props
open Parfu ScanSpec

/-- **C07** Scan of a target directory of a legal tree, when the stray byte after each link target
is zero: it succeeds, lists (as directories and as files) exactly the supported objects that can be
reached through directories that can be opened, each with its relative path, type, target and size,
and never lists a path twice. -/
theorem C07_scan_exact (g : Bytes → UInt8) (base : Bytes) (root : FNode) (hd : IsDir root)
    (hok : TreeOk root) (hg : ∀ r, g r = 0) :
    ∃ c, scan g base root = .ok c ∧
      (∀ e, e ∈ (c.dirs ++ c.files).map Ref.ent ↔ ∃ p n, Seen root p n ∧ describe p n = some e) ∧
      ((c.dirs ++ c.files).map (fun r => r.ent.rel)).Nodup ∧
      (∀ r ∈ c.dirs, r.ent.kind = .dir) ∧ (∀ r ∈ c.files, r.ent.kind ≠ .dir) := by
  obtain ⟨d, hsp⟩ := spiderDir_ok g hg root []
  obtain ⟨c, hc⟩ := collect_ok base d
  refine ⟨c, by simp only [scan, hsp, hc], ?_⟩
  obtain ⟨h1, h2, _⟩ := collect_spec hc
  have hsp' : spiderDir g (pathText []) (prune root) = .ok d := by
    rw [spiderDir_prune]; exact hsp
  have hdp : IsDir (prune root) := by
    cases root <;> simp_all [IsDir, prune]
  have hperm := spiderDir_perm g (prune root) [] d hdp (prune_ok root hok) (prune_openable root)
    (by simp) hsp'
  have hbfs : (bfsLoop [d] 0).Perm d.flat := by
    have := bfsLoop_perm [d] 0
    simpa [PDir.flatL] using this
  have hl : ((c.dirs ++ c.files).map Ref.ent).Perm (descs [] (objects (prune root))) := by
    rw [List.map_append, h1, h2]
    refine List.Perm.trans ?_ hperm
    unfold entsOf
    exact (hbfs.map _).append (hbfs.flatMap_right _)
  obtain ⟨hroot, hgood⟩ := spiderDir_good g root [] d hok hsp
  refine ⟨?_, ?_, ?_, ?_⟩
  · intro e
    rw [hl.mem_iff]
    simp only [descs, List.mem_filterMap, List.nil_append]
    constructor
    · rintro ⟨⟨p, n'⟩, hm, hdesc⟩
      obtain ⟨n, rfl, hs⟩ := at_prune.1 ((mem_objects_iff _ _ _).1 hm)
      exact ⟨p, n, hs, by rw [← hdesc, describe_prune]⟩
    · rintro ⟨p, n, hs, hdesc⟩
      exact ⟨(p, prune n), (mem_objects_iff _ _ _).2 (at_prune.2 ⟨n, rfl, hs⟩),
        by rw [← hdesc, describe_prune]⟩
  · have : (fun r : Ref => r.ent.rel) = Ent.rel ∘ Ref.ent := rfl
    rw [this, ← List.map_map]
    refine (hl.map Ent.rel).nodup_iff.2 ?_
    have hnd := objects_nodup (prune root) (prune_ok root hok)
    have hpath : ∀ x ∈ objects (prune root), ∀ y ∈ x.1, NameOk y := fun x hx =>
      at_nameOk ((mem_objects_iff _ x.1 x.2).1 hx) (prune_ok root hok)
    revert hnd hpath
    generalize objects (prune root) = os
    intro hnd hpath
    induction os with
    | nil => simp [descs]
    | cons x os ih =>
      rw [List.map_cons, List.nodup_cons] at hnd
      have ih' := ih hnd.2 (fun y hy => hpath y (by simp [hy]))
      simp only [descs, List.nil_append] at ih' ⊢
      rw [List.filterMap_cons]
      split
      · exact ih'
      · rename_i e he
        rw [List.map_cons, List.nodup_cons]
        refine ⟨?_, ih'⟩
        intro hm
        obtain ⟨e', he', heq⟩ := List.mem_map.1 hm
        obtain ⟨y, hy, hdy⟩ := List.mem_filterMap.1 he'
        have hrel : ∀ (p : List Bytes) (n : FNode) (e : Ent), describe p n = some e →
            e.rel = pathText p := by
          intro p n e h
          cases n <;> simp [describe] at h <;> subst h <;> rfl
        have e1 := hrel _ _ _ he
        have e2 := hrel _ _ _ hdy
        have := pathText_inj (hpath y (by simp [hy])) (hpath x (by simp)) (by rw [← e1, ← e2, heq])
        exact hnd.1 (List.mem_map.2 ⟨y, hy, this⟩)
  · intro r hr
    have : r.ent ∈ c.dirs.map Ref.ent := List.mem_map.2 ⟨r, hr, rfl⟩
    rw [h1] at this
    obtain ⟨q, hq, hqe⟩ := List.mem_map.1 this
    rw [← hqe]
    exact (hgood q (mem_bfs_flat hq)).2.1
  · intro r hr
    have : r.ent ∈ c.files.map Ref.ent := List.mem_map.2 ⟨r, hr, rfl⟩
    rw [h2] at this
    obtain ⟨q, hq, hqe⟩ := List.mem_flatMap.1 this
    exact (hgood q (mem_bfs_flat hq)).2.2 _ hqe

/-- **C07** When every directory can be opened, nothing is missed: every object at any depth is
listed.  (Hidden names are not special: `Child` only leaves out `.` and `..`.) -/
theorem C07_scan_complete (g : Bytes → UInt8) (base : Bytes) (root : FNode) (hd : IsDir root)
    (hok : TreeOk root) (hop : Openable root) (hg : ∀ r, g r = 0) :
    ∃ c, scan g base root = .ok c ∧
      (∀ e, e ∈ (c.dirs ++ c.files).map Ref.ent ↔ ∃ p n, At root p n ∧ describe p n = some e) := by
  obtain ⟨c, h1, h2, _⟩ := C07_scan_exact g base root hd hok hg
  refine ⟨c, h1, fun e => ?_⟩
  rw [h2]
  constructor
  · rintro ⟨p, n, h, h'⟩; exact ⟨p, n, seen_at h, h'⟩
  · rintro ⟨p, n, h, h'⟩; exact ⟨p, n, at_seen h hop, h'⟩

/-- **C07, limit**: the link reader never terminates the text it read, so if the byte after some
reachable link's target happens not to be zero, the scan has undefined behaviour; a successful scan
means that byte was zero for every link, and the only way to fail is this one. -/
theorem C07_link_reading_is_luck (g : Bytes → UInt8) (base : Bytes) (root : FNode) (hd : IsDir root)
    (hok : TreeOk root) :
    (∀ p m t, Seen root p (.lnk m t) → g (pathText p) ≠ 0 → scan g base root = .error .ub) ∧
    (∀ e, scan g base root = .error e → e = .ub) := by
  have hdp : IsDir (prune root) := by
    cases root <;> simp_all [IsDir, prune]
  constructor
  · intro p m t hs hgp
    cases hsp : spiderDir g [] root with
    | error e =>
      have := spiderDir_err g root [] e hsp
      subst this
      simp only [scan, hsp]
    | ok d =>
      have hsp' : spiderDir g (pathText []) (prune root) = .ok d := by
        rw [spiderDir_prune]; exact hsp
      have := spiderDir_links g (prune root) [] d hdp (prune_ok root hok) (prune_openable root)
        (by simp) hsp' p m t ((mem_objects_iff _ _ _).2 (at_prune.2 ⟨_, by simp [prune], hs⟩))
      exact absurd (by simpa using this) hgp
  · intro e h
    unfold scan at h
    split at h
    · rename_i hsp
      have := Except.error.inj h; subst this
      exact spiderDir_err g root [] _ hsp
    · obtain ⟨c, hc⟩ := collect_ok base (by assumption)
      rw [hc] at h; cases h

/-- **C08** In the list that is archived (directories, then files) the target directory comes
first, each other directory comes after the directory that contains it, and each file or link after
the directory that contains it. -/
theorem C08_parents_first (g : Bytes → UInt8) (base : Bytes) (root : FNode) (hok : TreeOk root)
    (c : Coll) (h : scan g base root = .ok c) :
    (∃ r t, c.dirs = r :: t ∧ r.ent.rel = []) ∧
    (∀ pre d post, (c.dirs ++ c.files) = pre ++ d :: post → pre ≠ [] →
      ∃ p ∈ pre, p.ent.kind = .dir ∧ ParentOf p.ent.rel d.ent.rel) := by
  unfold scan at h
  split at h
  · cases h
  rename_i d hsp
  obtain ⟨h1, h2, _⟩ := collect_spec h
  obtain ⟨hroot, hgood⟩ := spiderDir_good g root [] d hok hsp
  obtain ⟨t, ht⟩ := bfsLoop_prefix [d] 0
  rw [ht] at h1 h2
  have hinv : ∀ pre x post, bfsLoop [d] 0 = pre ++ x :: post →
      x ∈ [d] ∧ pre = [] ∨ ∃ p ∈ pre, x ∈ p.subs := by
    intro pre x post hx
    cases pre with
    | nil =>
      rw [ht] at hx; simp at hx; left; simp [hx.1]
    | cons y ys =>
      right
      -- use the parent lemma with an empty initial set beyond the head
      have key := bfsLoop_parent [d] [d] 0 (by
        intro pre z post hz
        left
        have : z ∈ [d] := by rw [hz]; simp
        exact this)
      -- strengthen: positions after the head come from a parent
      have key2 : ∀ (dirs : List PDir) (i : Nat),
          (∀ pre z post, dirs = pre ++ z :: post → pre = [] ∨ ∃ p ∈ pre, z ∈ p.subs) →
          ∀ pre z post, bfsLoop dirs i = pre ++ z :: post → pre = [] ∨ ∃ p ∈ pre, z ∈ p.subs := by
        intro dirs i
        fun_induction bfsLoop dirs i with
        | case1 dirs i hi ih =>
          intro hin
          apply ih
          intro pre z post heq
          rcases List.append_eq_append_iff.1 heq with ⟨a, e1, e2⟩ | ⟨a, e1, e2⟩
          · right
            refine ⟨dirs[i], ?_, ?_⟩
            · rw [e1]; exact List.mem_append_left _ (List.getElem_mem hi)
            · rw [e2]; simp
          · cases a with
            | nil =>
              right
              simp at e1 e2
              refine ⟨dirs[i], ?_, ?_⟩
              · rw [← e1]; exact List.getElem_mem hi
              · rw [← e2]; simp
            | cons w a =>
              simp only [List.cons_append, List.cons.injEq] at e2
              obtain ⟨rfl, e2⟩ := e2
              exact hin pre z a e1
        | case2 dirs i hi => intro hin; exact hin
      rcases key2 [d] 0 (by
        intro pre z post hz
        cases pre with
        | nil => left; rfl
        | cons a b => simp at hz) (y :: ys) x post hx with h | h
      · simp at h
      · exact h
  refine ⟨?_, ?_⟩
  · cases hcd : c.dirs with
    | nil => rw [hcd] at h1; simp at h1
    | cons r t' =>
      rw [hcd] at h1; simp at h1
      exact ⟨r, t', rfl, by rw [h1.1, hroot]⟩
  · intro pre x post hsplit hne
    -- look at the entries only
    rcases List.append_eq_append_iff.1 hsplit with ⟨a, e1, e2⟩ | ⟨a, e1, e2⟩
    · -- x is a file
      have hx : x.ent ∈ c.files.map Ref.ent := List.mem_map.2 ⟨x, by rw [e2]; simp, rfl⟩
      rw [h2] at hx
      obtain ⟨q, hq, hqf⟩ := List.mem_flatMap.1 hx
      rw [← ht] at hq
      have hqe : q.ent ∈ c.dirs.map Ref.ent := by
        rw [h1, ← ht]; exact List.mem_map.2 ⟨q, hq, rfl⟩
      obtain ⟨p, hp, hpe⟩ := List.mem_map.1 hqe
      refine ⟨p, by rw [e1]; exact List.mem_append_left _ hp, ?_, ?_⟩
      · rw [hpe]; exact (hgood q (mem_bfs_flat hq)).2.1
      · rw [hpe]; exact ((hgood q (mem_bfs_flat hq)).1.2 _ hqf).parent
    · cases a with
      | nil =>
        -- x is the first file
        simp only [List.append_nil, List.nil_append] at e1 e2
        have hx : x.ent ∈ c.files.map Ref.ent := List.mem_map.2 ⟨x, by rw [← e2]; simp, rfl⟩
        rw [h2] at hx
        obtain ⟨q, hq, hqf⟩ := List.mem_flatMap.1 hx
        rw [← ht] at hq
        have hqe : q.ent ∈ c.dirs.map Ref.ent := by
          rw [h1, ← ht]; exact List.mem_map.2 ⟨q, hq, rfl⟩
        obtain ⟨p, hp, hpe⟩ := List.mem_map.1 hqe
        refine ⟨p, by rw [← e1]; exact hp, ?_, ?_⟩
        · rw [hpe]; exact (hgood q (mem_bfs_flat hq)).2.1
        · rw [hpe]; exact ((hgood q (mem_bfs_flat hq)).1.2 _ hqf).parent
      | cons w a =>
        simp only [List.cons_append, List.cons.injEq] at e2
        obtain ⟨rfl, e2⟩ := e2
        rw [e1, List.map_append, List.map_cons, ← ht] at h1
        -- split the bfs list at the same place
        obtain ⟨l1, l2, hl, hl1, hl2⟩ := List.map_eq_append_iff.1 h1.symm
        obtain ⟨y, l3, rfl, hy, hl3⟩ := List.map_eq_cons_iff.1 hl2
        rcases hinv l1 y l3 hl with ⟨_, h0⟩ | ⟨p, hp, hps⟩
        · subst h0; simp at hl1; exact absurd hl1 hne
        · have hpe : p.ent ∈ pre.map Ref.ent := by rw [← hl1]; exact List.mem_map.2 ⟨p, hp, rfl⟩
          obtain ⟨p', hp', hpe'⟩ := List.mem_map.1 hpe
          have hpm : p ∈ d.flat := mem_bfs_flat (by rw [hl]; exact List.mem_append_left _ hp)
          refine ⟨p', hp', ?_, ?_⟩
          · rw [hpe']; exact (hgood p hpm).2.1
          · rw [hpe', ← hy]; exact ((hgood p hpm).1.1 _ hps).parent

/-! ### a concrete tree meets the hypotheses -/

/-- `.` , `..`, a file `b`, a directory `d` holding a hidden file `.h` and a link `l` to `t`, a
directory `e` that cannot be opened, a device `n`. -/
def demoTree : FNode :=
  let m : Meta := ⟨420, 0, 0, 0⟩
  .dir m true
    (.cons [46] (.other m) (.cons [46, 46] (.other m) (.cons [98] (.reg m [1, 2, 3])
      (.cons [100] (.dir m true (.cons [46, 104] (.reg m [7]) (.cons [108] (.lnk m [116]) .nil)))
        (.cons [101] (.dir m false (.cons [120] (.reg m []) .nil))
          (.cons [110] (.other m) .nil))))))

theorem demoTree_ok : IsDir demoTree ∧ TreeOk demoTree := by
  simp [demoTree, IsDir, TreeOk, KidsOk, names, NameOk]

/-- The scan of that tree, computed. -/
example : (scan (fun _ => 0) [47, 116] demoTree).map (fun c => (c.dirs ++ c.files).map Ref.ent) =
    .ok [⟨[], .dir, [], 0⟩, ⟨[100], .dir, [], 0⟩, ⟨[101], .dir, [], 0⟩, ⟨[98], .reg, [], 3⟩,
      ⟨[100, 47, 46, 104], .reg, [], 1⟩, ⟨[100, 47, 108], .lnk, [116], 0⟩] := by
  decide +kernel

/-- A tree without closed directories, for `C07_scan_complete`. -/
def demoTree2 : FNode :=
  let m : Meta := ⟨420, 0, 0, 0⟩
  .dir m true (.cons [97] (.dir m true (.cons [46, 104] (.reg m [7]) .nil)) .nil)

example : ∃ c, scan (fun _ => 0) [47] demoTree2 = .ok c ∧
    ⟨[97, 47, 46, 104], .reg, [], 1⟩ ∈ (c.dirs ++ c.files).map Ref.ent := by
  obtain ⟨c, h1, h2⟩ := C07_scan_complete (fun _ => 0) [47] demoTree2 trivial
    (by simp [demoTree2, TreeOk, KidsOk, names, NameOk])
    (by simp [demoTree2, Openable, OpenableK]) (fun _ => rfl)
  refine ⟨c, h1, (h2 _).2 ⟨[[97], [46, 104]], .reg ⟨420, 0, 0, 0⟩ [7], ?_, rfl⟩⟩
  exact .step (.here (by decide) (by decide)) (.step (.here (by decide) (by decide)) (.self _))

/-- The undefined behaviour is reachable: a stray byte after the target of `d/l`. -/
example : scan (fun _ => 65) [47, 116] demoTree = .error .ub :=
  (C07_link_reading_is_luck _ _ demoTree demoTree_ok.1 demoTree_ok.2).1 [[100], [108]]
    ⟨420, 0, 0, 0⟩ [116]
    (.step (.there (.there (.there (.here (by decide) (by decide)))))
      (.step (.there (.here (by decide) (by decide))) (.self _))) (by decide)

example : ∃ c, scan (fun _ => 0) [47, 116] demoTree = .ok c ∧ c.dirs.length = 3 := by
  obtain ⟨c, h, _⟩ := C07_scan_exact (fun _ => 0) [47, 116] demoTree demoTree_ok.1 demoTree_ok.2
    (fun _ => rfl)
  refine ⟨c, h, ?_⟩
  have : (scan (fun _ => 0) [47, 116] demoTree).map (fun c => c.dirs.length) = .ok 3 := by
    decide +kernel
  rw [h] at this
  exact Except.ok.inj this

end Parfu.Props
