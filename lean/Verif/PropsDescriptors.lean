/-
Property theorems C72: how many directories a tree may have that parfu 0.6 is to archive.
-/
import Verif.DescriptorsLemmas
import Verif.PropsOutcome
set_option autoImplicit false

namespace Parfu.Props
open Parfu MainSpec MoveSpec TarSpec ScanSpec PlanSpec ProtocolSpec FdSpec

/-- **C72** The scan of a process that can open `free` more files is the scan of the tree in which only the
first `free` directories (depth first) can be opened, and it leaves one descriptor less for each
directory. -/
theorem C72_scan_keeps_directories_open (g : Bytes → UInt8) (base : Bytes) (root : FNode) (free : Nat) :
    scanFd g base root free =
      match scan g base (limitDirs root free).1 with
      | .error e => .error e
      | .ok coll => .ok (coll, free - openDirs root) := by
  unfold scanFd scan
  rw [spiderFd_eq]
  cases spiderDir g [] (limitDirs root free).1 with
  | error e => rfl
  | ok d =>
    simp only [addLeft]
    rw [limitDirs_left]
    cases collect base d <;> rfl

section
variable {c : Cfg} {eager : Bool} {tr : List Ev} {s : Sys} {S : StdSort Ref} {g : Bytes → UInt8}
  {look : Bytes → FNode} {mx0 free : Nat} {args : List Bytes} {file0 : Option Bytes}

/-- The configuration in which rank 0 opens the archive: what it has left after its scan. -/
abbrev leftCfg (S : StdSort Ref) (g : Bytes → UInt8) (look : Bytes → FNode) (mx0 free : Nat) (args : List Bytes)
    (c : Cfg) : Cfg := c.withLeft (bossMainFd S g look mx0 c.ranks free args).2

/-- A run of the program whose rank 0 can open `free` files. -/
abbrev LimitedRun (S : StdSort Ref) (g : Bytes → UInt8) (look : Bytes → FNode) (mx0 free : Nat) (args : List Bytes)
    (c : Cfg) (eager : Bool) (file0 : Option Bytes) (tr : List Ev) (s : Sys) : Prop :=
  Run (leftCfg S g look mx0 free args c) eager (mainStartFd S g look mx0 c.ranks free args file0) tr s

theorem bossMainFd_fst (ranks : Nat) :
    (bossMainFd S g look mx0 ranks free args).1 =
      bossMain S g (fun t => (limitDirs (look t) free).1) mx0 ranks args := by
  unfold bossMainFd bossMain
  cases parseArgs [] (defaultOpts mx0) args with
  | error e => rfl
  | ok r =>
    cases r with
    | none => rfl
    | some x =>
      obtain ⟨ts, o⟩ := x
      simp only
      split
      · rfl
      · match ts with
        | [] => rfl
        | [t] =>
          simp only
          rw [C72_scan_keeps_directories_open]
          cases scan g t (limitDirs (look t) free).1 with
          | error e => rfl
          | ok coll =>
            simp only
            cases createOrders 0 o.bucket o.mx (setOffsets (orderFiles S coll)) <;> rfl
        | _ :: _ :: _ => rfl

theorem mainStartFd_eq (ranks : Nat) :
    mainStartFd S g look mx0 ranks free args file0 =
      mainStart S g (fun t => (limitDirs (look t) free).1) mx0 ranks args file0 := by
  unfold mainStartFd mainStart
  rw [bossMainFd_fst]

theorem withLeft_pos {left : Nat} (h : 0 < left) : c.withLeft left = c := by
  unfold Cfg.withLeft
  simp [h]

theorem withLeft_zero : (c.withLeft 0).creatable = false := by
  unfold Cfg.withLeft
  simp

theorem bossMainFd_left (ranks : Nat) (h0 : 0 < free) (h : ∀ t o, parseArgs [] (defaultOpts mx0) args = .ok (some ([t], o)) →
    openDirs (look t) < free) : 0 < (bossMainFd S g look mx0 ranks free args).2 := by
  unfold bossMainFd
  cases hp : parseArgs [] (defaultOpts mx0) args with
  | error e => exact h0
  | ok r =>
    cases r with
    | none => exact h0
    | some x =>
      obtain ⟨ts, o⟩ := x
      simp only
      split
      · exact h0
      · match ts with
        | [] => exact h0
        | [t] =>
          have := h t o hp
          simp only
          rw [C72_scan_keeps_directories_open]
          cases scan g t (limitDirs (look t) free).1 with
          | error e => exact h0
          | ok coll =>
            simp only
            cases createOrders 0 o.bucket o.mx (setOffsets (orderFiles S coll)) <;> simp only <;> omega
        | _ :: _ :: _ => exact h0

/-- **C72 (partial)** A target with fewer directories than rank 0 can open files: the program runs exactly
as if there were no limit.  Missing: targets with as many or more (`C72_too_many_directories`). -/
theorem C72_enough_descriptors_partial (h0 : 0 < free)
    (h : ∀ t o, parseArgs [] (defaultOpts mx0) args = .ok (some ([t], o)) → openDirs (look t) < free) :
    LimitedRun S g look mx0 free args c eager file0 tr s ↔ MainRun S g look mx0 args c eager file0 tr s := by
  unfold LimitedRun MainRun leftCfg
  rw [withLeft_pos (bossMainFd_left c.ranks h0 h)]
  have : mainStartFd S g look mx0 c.ranks free args file0 = mainStart S g look mx0 c.ranks args file0 := by
    rw [mainStartFd_eq]
    unfold mainStart
    congr 2
    unfold bossMain
    cases hp : parseArgs [] (defaultOpts mx0) args with
    | error e => rfl
    | ok r =>
      cases r with
      | none => rfl
      | some x =>
        obtain ⟨ts, o⟩ := x
        match ts with
        | [] => rfl
        | [t] =>
          have := h t o hp
          simp only [limitDirs_all (look t) free (by omega)]
        | _ :: _ :: _ => rfl
  rw [this]

/-! ### too many directories -/

mutual
theorem limit_treeOk : ∀ (n : FNode) (free : Nat), TreeOk n → TreeOk (limitDirs n free).1
  | .dir m o kids, free, h => by
    simp only [limitDirs]
    split
    · simp only [TreeOk] at h ⊢
      obtain ⟨h1, h2⟩ := limit_kidsOk kids (free - 1) h.2
      exact ⟨by rw [h2]; exact h.1, h1⟩
    · simp only [TreeOk] at h ⊢; exact h
  | .reg _ _, free, _ => by simp [limitDirs, TreeOk]
  | .lnk _ _, free, _ => by simp [limitDirs, TreeOk]
  | .other _, free, _ => by simp [limitDirs, TreeOk]
theorem limit_kidsOk : ∀ (k : Kids) (free : Nat), KidsOk k →
    KidsOk (limitKids k free).1 ∧ names (limitKids k free).1 = names k
  | .nil, free, _ => by simp [limitKids, KidsOk]
  | .cons name node rest, free, h => by
    simp only [KidsOk] at h
    simp only [limitKids]
    split
    · obtain ⟨h1, h2⟩ := limit_kidsOk rest free h.2
      simp only [KidsOk, names, h2]
      exact ⟨⟨h.1, h1⟩, trivial⟩
    · obtain ⟨h1, h2⟩ := limit_kidsOk rest (limitDirs node free).2 h.2
      simp only [KidsOk, names, h2]
      exact ⟨⟨fun hn => ⟨(h.1 hn).1, limit_treeOk node free (h.1 hn).2⟩, h1⟩, trivial⟩
end

theorem limit_child : ∀ (k : Kids) (free : Nat) (name : Bytes) (x : FNode), Child (limitKids k free).1 name x →
    ∃ y f, Child k name y ∧ x = (limitDirs y f).1
  | .nil, _, _, _, h => by simp only [limitKids] at h; cases h
  | .cons nm node rest, free, name, x, h => by
    simp only [limitKids] at h
    split at h
    · rename_i hd
      cases h with
      | here h1 h2 =>
        exfalso
        unfold isDots at hd
        simp only [Bool.or_eq_true, beq_iff_eq] at hd
        rcases hd with hd | hd
        · exact h1 hd
        · exact h2 hd
      | there h =>
        obtain ⟨y, f, h1, h2⟩ := limit_child rest _ name x h
        exact ⟨y, f, .there h1, h2⟩
    · cases h with
      | here h1 h2 => exact ⟨node, free, .here h1 h2, rfl⟩
      | there h =>
        obtain ⟨y, f, h1, h2⟩ := limit_child rest _ name x h
        exact ⟨y, f, .there h1, h2⟩

theorem limit_link : ∀ {n' : FNode} {p : List Bytes} {l : FNode}, Seen n' p l → ∀ (n : FNode) (free : Nat) (m : Meta) (t : Bytes),
    n' = (limitDirs n free).1 → l = .lnk m t → Seen n p (.lnk m t) := by
  intro n' p l h
  induction h with
  | self t' =>
    intro n free m t h1 h2
    subst h2
    cases n with
    | dir m' o k => simp only [limitDirs] at h1; split at h1 <;> cases h1
    | reg m' c => simp only [limitDirs] at h1; cases h1
    | lnk m' t' => simp only [limitDirs] at h1; rw [h1]; exact .self _
    | other m' => simp only [limitDirs] at h1; cases h1
  | @step m0 kids name ch p l h1 h2 ih =>
    intro n free m t h3 h4
    cases n with
    | dir m' o k =>
      simp only [limitDirs] at h3
      split at h3
      · rename_i ho
        simp only [FNode.dir.injEq, true_and] at h3
        obtain ⟨rfl, rfl⟩ := h3
        obtain ⟨y, f, h5, h6⟩ := limit_child k _ _ _ h1
        rw [ho.1]
        exact .step h5 (ih y f m t h6 h4)
      · simp at h3
    | reg m' c => simp only [limitDirs] at h3; cases h3
    | lnk m' t' => simp only [limitDirs] at h3; cases h3
    | other m' => simp only [limitDirs] at h3; cases h3

theorem limit_text {n : FNode} (free : Nat) (h : TextTree n) : TextTree (limitDirs n free).1 :=
  ⟨limit_treeOk n free h.ok, fun p m t hs => h.links p m t (limit_link hs n free m t rfl rfl)⟩

/-- An archive that cannot be made: the file is as it was, no worker fails, and no run ends with status 0. -/
theorem not_creatable {b : Nat} {archive base : Bytes} {orders : List Bytes} (hL : Launch c b archive base orders)
    (hc : c.creatable = false) (h : CreateRun c eager b archive base orders file0 tr s) :
    s.file = file0 ∧ s.boss ≠ .exit 0 ∧ ∀ r, c.worker r → ∀ e, (s.w r).stat ≠ .dead e := by
  have ho : openResult c file0 = none := by unfold openResult; cases file0 <;> simp [hc]
  refine ⟨?_, ?_, ?_⟩
  · cases run_inv' hL h with
    | pre i hc hq hi views len => exact hq.file
    | failed x hc hq hb' views hfile len => exact hq.file
    | post g pt hcc hp =>
      exfalso
      have hf : file0 = none := hp.fresh
      have : ∀ (tr : List Ev) (s : Sys), CreateRun c eager b archive base orders file0 tr s → s.file = none := by
        intro tr s h
        induction h with
        | nil => exact hf
        | snoc h st ih =>
          cases st with
          | openFile name k hp hb hw => simp [ih, openResult, hc]
          | work r text name memory old write hr hs hf hm ho hd => rw [ih] at ho; cases ho
          | _ => exact ih
      have h1 := this tr s h
      have h2 := hp.file
      rw [h1] at h2; cases h2
  · intro hb
    have := (C25_outcome hL h).1 hb
    rw [ho] at this; cases this
  · intro r hr e hd
    cases run_inv' hL h with
    | pre i hc hq hi views len =>
      have hv := views r hr
      generalize hl : s.loc r = l at hv
      rw [Sys.loc] at hl
      cases hv <;> simp only [Loc.mk.injEq] at hl <;> rw [hl.1] at hd <;> cases hd
    | failed x hc hq hb' views hfile len =>
      have hv := views r hr
      generalize hl : s.loc r = l at hv
      rw [Sys.loc] at hl
      cases hv <;> simp only [Loc.mk.injEq] at hl <;> rw [hl.1] at hd <;> cases hd
    | post g pt hcc hp =>
      have hf : file0 = none := hp.fresh
      have : ∀ (tr : List Ev) (s : Sys), CreateRun c eager b archive base orders file0 tr s → s.file = none := by
        intro tr s h
        induction h with
        | nil => exact hf
        | snoc h st ih =>
          cases st with
          | openFile name k hp hb hw => simp [ih, openResult, hc]
          | work r text name memory old write hr hs hf hm ho hd => rw [ih] at ho; cases ho
          | _ => exact ih
      have h1 := this tr s h
      have h2 := hp.file
      rw [h1] at h2; cases h2

/-- **C72, violated** A target with at least as many directories as rank 0 can open files cannot be
archived: the directories stay open, so the archive cannot be opened.  No archive is made, an existing file
is as it was, rank 0 never ends with status 0, and a run that cannot go on has ended with status 1. -/
theorem C72_too_many_directories (hr2 : 2 ≤ c.ranks) (hrI : c.ranks < 2 ^ 31) (hargs : ∀ a ∈ args, (0 : UInt8) ∉ a)
    {t : Bytes} {o : Opts} (hp : parseArgs [] (defaultOpts mx0) args = .ok (some ([t], o))) (ha : o.archive ≠ [])
    (hT : TextTree (look t)) (hg : ∀ r, g r = 0) (hb1 : 100000 ≤ o.bucket) (hb2 : o.bucket < 2 ^ 31)
    (hmany : free ≤ openDirs (look t))
    (h : LimitedRun S g look mx0 free args c eager file0 tr s) :
    s.file = file0 ∧ s.boss ≠ .exit 0 ∧
    (Stuck (leftCfg S g look mx0 free args c) s → Finished c 1 s) := by
  have hne : args ≠ [] := by rintro rfl; simp [parseArgs] at hp
  obtain ⟨htx, hax⟩ := parse_text args hargs [] (defaultOpts mx0) (by simp) (by simp [defaultOpts]) _ _ hp
  have ht0 := htx t (by simp)
  have hT' := limit_text free hT
  obtain ⟨d, hsp⟩ := spiderDir_ok g hg (limitDirs (look t) free).1 []
  obtain ⟨coll, hcl⟩ := collect_ok t d
  have hsc : scan g t (limitDirs (look t) free).1 = .ok coll := by simp only [scan, hsp, hcl]
  cases hpl : createOrders 0 o.bucket o.mx (setOffsets (orderFiles S coll)) with
  | none =>
    exfalso
    rcases (C16_refused_iff 0 o.bucket o.mx _).1 hpl with h | ⟨h, _⟩
    · omega
    · obtain ⟨h1, _⟩ := collect_spec hcl
      obtain ⟨l, hl⟩ := bfsLoop_prefix [d] 0
      rw [show coll.dirs = [] from h, hl] at h1
      simp at h1
  | some bundles =>
    have hleft : (bossMainFd S g look mx0 c.ranks free args).2 = 0 := by
      unfold bossMainFd
      rw [hp]
      have : ¬ (o.archive.length < 1) := by
        intro h; apply ha; exact List.length_eq_zero_iff.1 (by omega)
      simp only [if_neg this]
      rw [C72_scan_keeps_directories_open, hsc]
      simp only [hpl]
      omega
    have hst := mainStart_job (c := c) (S := S) (look := fun t => (limitDirs (look t) free).1) (file0 := file0)
      hne hp ha hsc hpl
    unfold LimitedRun leftCfg at h
    unfold leftCfg
    rw [hleft] at h ⊢
    rw [mainStartFd_eq, hst] at h
    have hL : Launch (c.withLeft 0) o.bucket o.archive t (bundles.map printBundle) :=
      ⟨by show 1 ≤ c.ranks; omega, hrI, by omega, hb2, hax, ht0, plan_text hT' hsc hpl⟩
    obtain ⟨h1, h2, h3⟩ := not_creatable hL withLeft_zero h
    refine ⟨h1, h2, fun hs => ?_⟩
    rcases C25_only_failure_stops hL hr2 h h3 with hf | hf | ⟨e, s', hst⟩
    · exact absurd hf.1 h2
    · exact hf
    · exact absurd hst.eager (hs e s')

/-- **C72** Hence status 0 is honest also here: a run that has ended with status 0 had descriptors for all
directories, so nothing was left out for lack of them. -/
theorem C72_status_0_saw_everything (hr2 : 2 ≤ c.ranks) (hrI : c.ranks < 2 ^ 31) (hargs : ∀ a ∈ args, (0 : UInt8) ∉ a)
    {t : Bytes} {o : Opts} (hp : parseArgs [] (defaultOpts mx0) args = .ok (some ([t], o))) (ha : o.archive ≠ [])
    (hT : TextTree (look t)) (hg : ∀ r, g r = 0) (hb1 : 100000 ≤ o.bucket) (hb2 : o.bucket < 2 ^ 31)
    (h : LimitedRun S g look mx0 free args c eager file0 tr s) (h0 : s.boss = .exit 0) :
    openDirs (look t) < free ∧ MainRun S g look mx0 args c eager file0 tr s := by
  have hlt : openDirs (look t) < free := by
    refine Classical.byContradiction fun hc => ?_
    exact (C72_too_many_directories hr2 hrI hargs hp ha hT hg hb1 hb2 (by omega) h).2.1 h0
  refine ⟨hlt, (C72_enough_descriptors_partial (by omega) ?_).1 h⟩
  intro t' o' hp'
  rw [hp] at hp'
  simp only [Except.ok.injEq, Option.some.injEq, Prod.mk.injEq, List.cons.injEq, and_true] at hp'
  rw [← hp'.1]; exact hlt

end

/-- `n` directories, each in the one before it. -/
def nest : Nat → FNode
  | 0 => .dir ⟨493, 0, 0, 0⟩ true .nil
  | n + 1 => .dir ⟨493, 0, 0, 0⟩ true (.cons [100] (nest n) .nil)

theorem nest_openDirs (n : Nat) : openDirs (nest n) = n + 1 := by
  induction n with
  | zero => simp [nest, openDirs, openDirsIn]
  | succ n ih =>
    simp only [nest, openDirs, openDirsIn, ih, show isDots [100] = false by decide]
    simp only [Bool.false_eq_true, if_false]
    omega

theorem nest_text (n : Nat) : TextTree (nest n) := by
  constructor
  · induction n with
    | zero => simp [nest, TreeOk, names, KidsOk]
    | succ n ih => simp [nest, TreeOk, KidsOk, names, NameOk, ih]
  · intro p m t h
    exfalso
    induction n generalizing p with
    | zero =>
      simp only [nest] at h
      cases h with
      | step h1 h2 => cases h1
    | succ n ih =>
      simp only [nest] at h
      cases h with
      | step h1 h2 =>
        cases h1 with
        | here _ _ => exact ih _ h2
        | there h1 => cases h1

/-- **C72, violated for every limit** However many files rank 0 can open, there is a readable tree of empty
directories that `parfu archivefile=a /t` with two workers cannot archive. -/
theorem C72_every_limit_is_reached (free : Nat) : ∃ root : FNode, Openable root ∧
    ∀ eager tr s, LimitedRun demoSort2 (fun _ => 0) (fun _ => root) 7 free [archivefile ++ [61, 97], [47, 116]]
      demoCfg eager none tr s → s.file = none ∧ s.boss ≠ .exit 0 := by
  refine ⟨nest free, ?_, fun eager tr s h => ?_⟩
  · induction free with
    | zero => simp [nest, Openable, OpenableK]
    | succ n ih => simp [nest, Openable, OpenableK, ih]
  · have := C72_too_many_directories (c := demoCfg) (t := [47, 116]) (o := ⟨4992000, 7, [97]⟩) (by decide) (by decide) (by decide)
      (by decide +kernel) (by decide) (nest_text free) (fun _ => rfl) (by decide) (by decide)
      (by rw [nest_openDirs]; omega) h
    exact ⟨this.1, this.2.1⟩

/-! ### concrete cases -/

/-- The concrete tree has two directories that can be opened (and one that cannot); with two descriptors the
scan finds everything but leaves none for the archive, with one it misses what is in `d`. -/
example : openDirs demoTree = 2 ∧
    (scanFd (fun _ => 0) [47, 116] demoTree 2).map (fun r => ((r.1.dirs ++ r.1.files).map (fun x => x.ent.rel), r.2)) =
      .ok ([[], [100], [101], [98], [100, 47, 46, 104], [100, 47, 108]], 0) ∧
    (scanFd (fun _ => 0) [47, 116] demoTree 1).map (fun r => ((r.1.dirs ++ r.1.files).map (fun x => x.ent.rel), r.2)) =
      .ok ([[], [100], [101], [98]], 0) := by
  refine ⟨by decide, by decide +kernel, by decide +kernel⟩

/-- With three descriptors `parfu archivefile=a /t` ends with status 0 on it, with two with status 1. -/
example :
    (∃ tr s, LimitedRun demoSort2 (fun _ => 0) (fun _ => demoTree) 7 3 [archivefile ++ [61, 97], [47, 116]]
      demoCfg true none tr s ∧ Finished demoCfg 0 s) ∧
    (∀ tr s, LimitedRun demoSort2 (fun _ => 0) (fun _ => demoTree) 7 2 [archivefile ++ [61, 97], [47, 116]]
      demoCfg true none tr s → Stuck (leftCfg demoSort2 (fun _ => 0) (fun _ => demoTree) 7 2 [archivefile ++ [61, 97], [47, 116]] demoCfg) s →
      Finished demoCfg 1 s) := by
  constructor
  · have h := (C19_whole_program (S := demoSort2) (g := fun _ => 0) (look := fun _ => demoTree) (mx0 := 7)
      (args := [archivefile ++ [61, 97], [47, 116]]) (c := demoCfg) (t := [47, 116]) (o := ⟨4992000, 7, [97]⟩)
      (by unfold ShortArgs; decide) (by decide +kernel) (by decide) (by decide) (by decide) (by decide)
      demo_shortTree (fun _ => rfl) demo_total (by decide) (by decide) rfl Run.nil).2.1
    obtain ⟨more, s, h1, h2⟩ := h
    exact ⟨_, s, (C72_enough_descriptors_partial (by decide) (fun _ _ _ => by decide)).2 h1, h2⟩
  · intro tr s h hs
    exact (C72_too_many_directories (c := demoCfg) (t := [47, 116]) (o := ⟨4992000, 7, [97]⟩) (by decide) (by decide) (by decide)
      (by decide +kernel) (by decide) demo_text (fun _ => rfl) (by decide) (by decide)
      (by decide) h).2.2 hs

end Parfu.Props
