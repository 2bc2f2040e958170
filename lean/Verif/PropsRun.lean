/-
Property theorems C19-C21 and C41 for whole runs of the program: the planning of rank 0, the
protocol and the data movement put together.
-/
import Verif.PropsMove
import Verif.PropsProtocol
import Mathlib.Data.List.Perm.Subperm
set_option autoImplicit false

namespace Parfu.Props
open Parfu MoveSpec TarSpec ScanSpec PlanSpec ProtocolSpec

theorem perm_of_map_perm {α β : Type} (f : α → β) {M N : List β} (h : M.Perm N) :
    ∀ L : List α, L.map f = M → ∃ L' : List α, L'.Perm L ∧ L'.map f = N := by
  induction h with
  | nil => intro L hL; exact ⟨L, List.Perm.refl _, hL⟩
  | cons x _ ih =>
    intro L hL
    obtain ⟨a, L1, rfl, rfl, hL1⟩ := List.map_eq_cons_iff.1 hL
    obtain ⟨L', h1, h2⟩ := ih L1 hL1
    exact ⟨a :: L', h1.cons a, by simp [h2]⟩
  | swap x y l =>
    intro L hL
    obtain ⟨a, L1, rfl, rfl, hL1⟩ := List.map_eq_cons_iff.1 hL
    obtain ⟨c, L2, rfl, rfl, hL2⟩ := List.map_eq_cons_iff.1 hL1
    exact ⟨c :: a :: L2, List.Perm.swap a c L2, by simp [hL2]⟩
  | trans _ _ ih1 ih2 =>
    intro L hL
    obtain ⟨L1, h1, h2⟩ := ih1 L hL
    obtain ⟨L2, h3, h4⟩ := ih2 L1 h2
    exact ⟨L2, h3.trans h1, h4⟩

/-- What each completion in a trace did: text, previous buffer contents, write. -/
def ran (tr : List Ev) : List (Bytes × Bytes × WriteReq) :=
  tr.filterMap fun e => match e with
    | .wrote _ t _ _ m w => some (t, m, w)
    | _ => none

theorem ran_text (tr : List Ev) : (ran tr).map Prod.fst = (executed tr).map Prod.snd := by
  unfold ran executed
  rw [List.map_filterMap, List.map_filterMap]
  congr 1
  funext e
  cases e <;> rfl

theorem ran_writes (tr : List Ev) : (ran tr).map (fun x => x.2.2) = writes tr := by
  unfold ran writes
  rw [List.map_filterMap]
  congr 1
  funext e
  cases e <;> rfl

theorem tasks_of (B : List (List Order)) (W : List (Bytes × Bytes × WriteReq))
    (h : B.map printBundle = W.map Prod.fst) :
    ∃ xs : List Task, xs.map Task.bundle = B ∧
      xs.map (fun x => (printBundle x.bundle, x.memory, x.write)) = W := by
  induction B generalizing W with
  | nil =>
    cases W with
    | nil => exact ⟨[], rfl, rfl⟩
    | cons w W => simp at h
  | cons l B ih =>
    cases W with
    | nil => simp at h
    | cons w W =>
      simp only [List.map_cons, List.cons.injEq] at h
      obtain ⟨xs, h1, h2⟩ := ih W h.2
      refine ⟨⟨l, w.2.1, w.2.2⟩ :: xs, by simp [h1], ?_⟩
      simp only [List.map_cons, h2, h.1]

section
variable {cfg : Cfg} {base : Bytes} {root : FNode} {S : StdSort Ref} {g : Bytes → UInt8}
  {b mx : Nat} {c : Coll} {bundles : List (List Order)} {archive : Bytes} {eager : Bool}
  {file0 : Option Bytes} {tr : List Ev} {s : Sys}

/-- What is needed to launch a job: at least one process, an archive name without NUL bytes, a
bucket size that fits an `int`. -/
structure Launchable (cfg : Cfg) (b : Nat) (archive : Bytes) : Prop where
  ranks : 1 ≤ cfg.ranks
  ranksInt : cfg.ranks < 2 ^ 31
  bucketInt : b < 2 ^ 31
  archiveText : (0 : UInt8) ∉ archive

theorem job_launch (j : Job cfg.env cfg.fs base root S g b mx c bundles) (hl : Launchable cfg b archive) :
    Launch cfg b archive base (bundles.map printBundle) where
  ranks := hl.ranks
  ranksInt := hl.ranksInt
  bucket := by
    rcases Nat.eq_zero_or_pos b with h | h
    · exfalso
      have := j.planned
      rw [(C16_refused_iff 0 b mx _).2 (Or.inl (by omega))] at this
      cases this
    · exact h
  bucketInt := hl.bucketInt
  archiveText := hl.archiveText
  baseText := j.tree.base_nul
  orderText := by
    intro t ht
    obtain ⟨l, hl, rfl⟩ := List.mem_map.1 ht
    obtain ⟨_, _, hr⟩ := j.setup
    exact print_no_nul l (fun o ho => hr.noNul o (List.mem_flatten.2 ⟨l, hl, ho⟩))

theorem job_received (j : Job cfg.env cfg.fs base root S g b mx c bundles) (l : List Order)
    (hl : l ∈ bundles) : received l = printBundle l := by
  obtain ⟨_, _, hr⟩ := j.setup
  unfold received
  rw [recv_send 67 (by decide) _ (print_no_nul l (fun o ho => hr.noNul o (List.mem_flatten.2 ⟨l, hl, ho⟩)))]
  rfl

theorem job_workable (j : Job cfg.env cfg.fs base root S g b mx c bundles) :
    Workable cfg b base (bundles.map printBundle) := by
  intro t ht memory hm
  obtain ⟨l, hl, rfl⟩ := List.mem_map.1 ht
  rw [← job_received j l hl]
  exact C19_no_worker_fails j l hl memory hm

theorem executed_subperm {b : Nat} {archive base : Bytes} {orders : List Bytes}
    (hL : Launch cfg b archive base orders)
    (h : CreateRun cfg eager b archive base orders file0 tr s) :
    ((executed tr).map Prod.snd).Subperm orders := by
  obtain ⟨⟨n, h1⟩, h2, h3, h4⟩ := C22_dispatch_in_order hL h
  have hs : (executed tr).Subperm (dispatched tr) := by
    rw [List.subperm_ext_iff]
    rintro ⟨r, t⟩ hx
    have hw := h3 _ hx
    obtain ⟨rest, _, hr⟩ := h4 r hw
    rw [count_ofRank, count_ofRank, hr, List.count_append]
    omega
  have hm : ((executed tr).map Prod.snd).Subperm ((dispatched tr).map Prod.snd) := by
    obtain ⟨l, h5, h6⟩ := hs
    exact ⟨l.map Prod.snd, h5.map _, h6.map _⟩
  rw [h1] at hm
  exact hm.trans (List.take_sublist n orders).subperm

/-- At every moment of every run, what has been done can be completed to a full execution. -/
theorem run_tasks (j : Job cfg.env cfg.fs base root S g b mx c bundles) (hl : Launchable cfg b archive)
    (h : CreateRun cfg eager b archive base (bundles.map printBundle) file0 tr s) :
    ∃ xs ys zs : List Task, xs.map (fun x => (printBundle x.bundle, x.memory, x.write)) = ran tr ∧
      zs.Perm (xs ++ ys) ∧ Carried cfg.env cfg.fs base b bundles zs := by
  have hL := job_launch j hl
  have hsub := executed_subperm hL h
  rw [← ran_text] at hsub
  obtain ⟨rest, hrest⟩ : ∃ rest, (bundles.map printBundle).Perm ((ran tr).map Prod.fst ++ rest) := by
    obtain ⟨l, h5, h6⟩ := hsub
    obtain ⟨rest, h7⟩ := h6.exists_perm_append
    exact ⟨rest, h7.trans (h5.append_right rest)⟩
  obtain ⟨B', hB1, hB2⟩ := perm_of_map_perm printBundle hrest bundles rfl
  obtain ⟨B1, B2, rfl, h1, h2⟩ := List.map_eq_append_iff.1 hB2
  obtain ⟨xs, hx1, hx2⟩ := tasks_of B1 _ h1
  -- the rest is made up
  have hrestTasks : ∀ B : List (List Order), (∀ l ∈ B, l ∈ bundles) → ∃ ys : List Task, ys.map Task.bundle = B ∧
      ∀ y ∈ ys, y.memory.length = b ∧ workerDo cfg.env cfg.fs base y.memory (received y.bundle) = .ok y.write := by
    intro B
    induction B with
    | nil => intro _; exact ⟨[], rfl, by simp⟩
    | cons l B ih =>
      intro hB
      obtain ⟨ys, i1, i2⟩ := ih (fun l hl => hB l (by simp [hl]))
      obtain ⟨w, hw⟩ := C19_no_worker_fails j l (hB l (by simp)) (List.replicate b 0) (by simp)
      refine ⟨⟨l, List.replicate b 0, w⟩ :: ys, by simp [i1], ?_⟩
      intro y hy
      rcases List.mem_cons.1 hy with rfl | hy
      · exact ⟨by simp, hw⟩
      · exact i2 y hy
  obtain ⟨ys, hy1, hy2⟩ := hrestTasks B2 (fun l hl => hB1.mem_iff.1 (by simp [hl]))
  obtain ⟨zs, hz1, hz2⟩ := perm_of_map_perm Task.bundle (N := bundles) (M := B1 ++ B2) hB1 (xs ++ ys)
    (by rw [List.map_append, hx1, hy1])
  refine ⟨xs, ys, zs, hx2, hz1, hz2, ?_⟩
  intro z hz
  have hzb : z.bundle ∈ bundles := by rw [← hz2]; exact List.mem_map.2 ⟨z, hz, rfl⟩
  rcases List.mem_append.1 (hz1.mem_iff.1 hz) with hz | hz
  · have hm : (printBundle z.bundle, z.memory, z.write) ∈ ran tr := by
      rw [← hx2]; exact List.mem_map.2 ⟨z, hz, rfl⟩
    unfold ran at hm
    obtain ⟨e, he, hee⟩ := List.mem_filterMap.1 hm
    cases e with
    | wrote r t ba ar me wq =>
      simp only [Option.some.injEq, Prod.mk.injEq] at hee
      obtain ⟨rfl, rfl, rfl⟩ := hee
      rw [job_received j _ hzb]
      cases run_inv' hL h with
      | pre i hc hq hi views len => exact absurd he (hq.noWrite _ _ _ _ _ _)
      | failed x hc hq hb' views hfile len => exact absurd he (hq.noWrite _ _ _ _ _ _)
      | post g pt hc hp =>
        obtain ⟨_, _, h3, h4⟩ := hp.wrote _ _ _ _ _ _ he
        exact ⟨h3, h4⟩
    | _ => cases hee
  · exact hy2 z hz

/-- When rank 0 has ended normally, the run is a full execution and the file is what it wrote. -/
theorem run_carried (j : Job cfg.env cfg.fs base root S g b mx c bundles) (hl : Launchable cfg b archive)
    (h : CreateRun cfg eager b archive base (bundles.map printBundle) file0 tr s) (hb : s.boss = .exit 0) :
    ∃ xs, Carried cfg.env cfg.fs base b bundles xs ∧ (writes tr).Perm (xs.map Task.write) ∧
      s.file = some (writeAll (writes tr)) := by
  have hL := job_launch j hl
  obtain ⟨xs, ys, zs, hx, hz, hc⟩ := run_tasks j hl h
  have hlen1 := congrArg List.length (C22_exactly_once hL h hb).1
  have hlen2 := (C22_exactly_once hL h hb).2.length_eq
  have hlen3 := congrArg List.length (ran_text tr)
  have hlen4 := congrArg List.length hx
  have hlen5 := hz.length_eq
  have hlen6 := congrArg List.length hc.1
  simp only [List.length_map, List.length_append] at hlen1 hlen2 hlen3 hlen4 hlen5 hlen6
  have : ys = [] := List.length_eq_zero_iff.1 (by omega)
  subst this
  rw [List.append_nil] at hz
  refine ⟨zs, hc, ?_, C28_new_archive_is_the_writes hL h hb⟩
  rw [← ran_writes, ← hx, List.map_map]
  exact (hz.map Task.write).symm

/-! ### C19-C21 for runs -/

/-- **C19** Every run of a job that ends with success leaves an archive in which a tar reader finds
exactly the members specified for the objects of the tree that can be reached, each once, a
directory before what it contains. -/
theorem C19_every_successful_run (j : Job cfg.env cfg.fs base root S g b mx c bundles)
    (hl : Launchable cfg b archive)
    (h : CreateRun cfg eager b archive base (bundles.map printBundle) file0 tr s) (hb : s.boss = .exit 0) :
    ∃ (A : Bytes) (ms : List Member) (objs : List (List Bytes × FNode)),
      s.file = some A ∧ readArchive A = some ms ∧
      ms.map some = objs.map (fun x => memberOf cfg.env base x.1 x.2) ∧
      (objs.map Prod.fst).Nodup ∧
      (∀ p n, (p, n) ∈ objs ↔ Seen root p n ∧ describe p n ≠ none) ∧
      (∀ pre x post, objs = pre ++ x :: post → pre ≠ [] →
        ∃ y ∈ pre, IsDir y.2 ∧ ∃ name, x.1 = y.1 ++ [name]) := by
  obtain ⟨xs, h1, h2, h3⟩ := run_carried j hl h hb
  obtain ⟨ms, objs, h4⟩ := C19_archive_is_tar_partial j xs h1 _ h2
  exact ⟨_, ms, objs, h3, h4⟩

/-- **C19** With at least one worker, no file of the archive's name, and a place where it can be
created, every run of a job can be continued to its end, no run goes on for ever, and the only
state in which nothing more can happen is the one where all processes have ended, rank 0 with
status 0 (so that `C19_every_successful_run` applies). -/
theorem C19_runs_succeed (j : Job cfg.env cfg.fs base root S g b mx c bundles)
    (hl : Launchable cfg b archive) (hr : 2 ≤ cfg.ranks) (hc : cfg.creatable = true)
    (h : CreateRun cfg true b archive base (bundles.map printBundle) none tr s) :
    tr.length ≤ (2 * cfg.ranks + 6) * (8 + 6 * cfg.ranks + 3 * bundles.length) ∧
    (Stuck cfg s → Finished cfg 0 s) ∧
    ∃ more s', CreateRun cfg true b archive base (bundles.map printBundle) none (tr ++ more) s' ∧
      Finished cfg 0 s' := by
  have hL := job_launch j hl
  have hW := job_workable j
  have hn1 : ∀ tr s, CreateRun cfg true b archive base (bundles.map printBundle) none tr s → s.boss ≠ .exit 1 := by
    intro tr s h hb
    have := (C25_outcome hL h).2 hb
    simp [openResult, hc] at this
  refine ⟨?_, ?_, ?_⟩
  · have := C25_bounded hL h
    simpa using this
  · intro hs
    rcases C25_no_deadlock hL hW hr h with h0 | h1 | ⟨e, s', hst⟩
    · exact h0
    · exact absurd h1.1 (hn1 _ _ h)
    · exact absurd hst.eager (hs e s')
  · obtain ⟨more, s', h2, h3⟩ := C25_reaches_end hL hW hr h
    rcases h3 with h3 | h3
    · exact ⟨more, s', h2, h3⟩
    · exact absurd h3.1 (hn1 _ _ h2)

/-- **C20 (partial)** Two successful runs of a job, with whatever numbers of workers and schedules,
leave archives of the same length that agree everywhere but in the padding between members of one
bundle.  Missing: that padding (`C20_padding_is_memory`, `C20_archives_differ`). -/
theorem C20_any_two_runs_partial {cfg' : Cfg} (he : cfg'.env = cfg.env) (hf : cfg'.fs = cfg.fs)
    (j : Job cfg.env cfg.fs base root S g b mx c bundles)
    {archive' : Bytes} (hl : Launchable cfg b archive) (hl' : Launchable cfg' b archive') {eager' : Bool}
    {file0' : Option Bytes} {tr' : List Ev} {s' : Sys}
    (h : CreateRun cfg eager b archive base (bundles.map printBundle) file0 tr s) (hb : s.boss = .exit 0)
    (h' : CreateRun cfg' eager' b archive' base (bundles.map printBundle) file0' tr' s')
    (hb' : s'.boss = .exit 0) :
    ∃ A A', s.file = some A ∧ s'.file = some A' ∧ A.length = A'.length ∧
      ∀ i, ¬ InnerPadding bundles i → A[i]? = A'[i]? := by
  obtain ⟨xs, h1, h2, h3⟩ := run_carried j hl h hb
  have j' : Job cfg'.env cfg'.fs base root S g b mx c bundles := by rw [he, hf]; exact j
  obtain ⟨xs', h1', h2', h3'⟩ := run_carried j' hl' h' hb'
  rw [he, hf] at h1'
  exact ⟨_, _, h3, h3', C20_determined_partial j xs xs' h1 h1' _ _ h2 h2'⟩

/-- **C21, violated** No run that ends with success leaves a terminated archive. -/
theorem C21_no_run_terminates_archive (j : Job cfg.env cfg.fs base root S g b mx c bundles)
    (hl : Launchable cfg b archive)
    (h : CreateRun cfg eager b archive base (bundles.map printBundle) file0 tr s) (hb : s.boss = .exit 0) :
    ∃ A, s.file = some A ∧ terminated A = false := by
  obtain ⟨xs, h1, h2, h3⟩ := run_carried j hl h hb
  exact ⟨_, h3, C21_never_terminated j xs h1 _ h2⟩

/-! ### C41: crash points -/

/-- A bundle of the plan has been carried out in this trace. -/
def DoneBundle (tr : List Ev) (l : List Order) : Prop := ∃ r, (r, printBundle l) ∈ executed tr

/-- Writes to ranges that do not meet: what the first ones put there stays. -/
theorem writes_stay (ws more : List WriteReq)
    (hap : (ws ++ more).Pairwise (fun a b : WriteReq => Apart a.1 a.2.length b.1 b.2.length))
    (w : WriteReq) (hw : w ∈ ws) (i : Nat) (h1 : w.1 ≤ i) (h2 : i < w.1 + w.2.length) :
    (writeAll ws)[i]? = (writeAll (ws ++ more))[i]? ∧ (writeAll ws)[i]? = w.2[i - w.1]? := by
  have ha := (foldl_writeAt_holds ws [] (List.pairwise_append.1 hap).1).1 w hw
  have hb := (foldl_writeAt_holds (ws ++ more) [] hap).1 w (List.mem_append_left _ hw)
  have e1 := (holds_iff _ _ _).1 ha (i - w.1) (by omega)
  have e2 := (holds_iff _ _ _).1 hb (i - w.1) (by omega)
  rw [show w.1 + (i - w.1) = i by omega] at e1 e2
  exact ⟨e1.trans e2.symm, e1⟩

/-- **C41** At every moment of every run - wherever it is interrupted - each bundle that has been
carried out is in the archive as it would be in a finished one: every byte of its range, except
padding between its members, is the byte that any successful run leaves there. -/
theorem C41_partial_archive_is_right {cfg' : Cfg} (he : cfg'.env = cfg.env) (hf : cfg'.fs = cfg.fs)
    (j : Job cfg.env cfg.fs base root S g b mx c bundles)
    {archive' : Bytes} (hl : Launchable cfg b archive) (hl' : Launchable cfg' b archive') {eager' : Bool}
    {file0' : Option Bytes} {tr' : List Ev} {s' : Sys}
    (h : CreateRun cfg eager b archive base (bundles.map printBundle) file0 tr s)
    (h' : CreateRun cfg' eager' b archive' base (bundles.map printBundle) file0' tr' s')
    (hb' : s'.boss = .exit 0) (l : List Order) (hlb : l ∈ bundles) (hd : DoneBundle tr l) :
    ∃ f A, s.file = some f ∧ s'.file = some A ∧
      ∀ i, startOf l ≤ i → i < up512 (endOf l) → ¬ InnerPadding bundles i →
        (∃ x, f[i]? = some x) ∧ f[i]? = A[i]? := by
  have hL := job_launch j hl
  obtain ⟨xs', h1', h2', h3'⟩ := run_carried (by rw [he, hf]; exact j) hl' h' hb'
  rw [he, hf] at h1'
  obtain ⟨xs, ys, zs, hx, hz, hc⟩ := run_tasks j hl h
  -- some task did the bundle
  obtain ⟨r, hd⟩ := hd
  have hmem : printBundle l ∈ (ran tr).map Prod.fst := by
    rw [ran_text]; exact List.mem_map.2 ⟨_, hd, rfl⟩
  rw [← hx, List.map_map] at hmem
  obtain ⟨x, hxm, hxp⟩ := List.mem_map.1 hmem
  have hxp : printBundle x.bundle = printBundle l := hxp
  have hxz : x ∈ zs := hz.mem_iff.2 (by simp [hxm])
  have hxb : x.bundle ∈ bundles := by rw [← hc.1]; exact List.mem_map.2 ⟨x, hxz, rfl⟩
  obtain ⟨_, _, hr⟩ := j.setup
  -- printing determines the write
  have hw1 := (hc.2 x hxz)
  obtain ⟨dl, hdl, hlen, _⟩ := run_bundle hr l hlb x.memory hw1.1
  have hw2 := hw1.2
  rw [job_received j _ hxb, hxp, ← job_received j _ hlb, hdl] at hw2
  have hwx : x.write = (startOf l, dl) := (Except.ok.inj hw2).symm
  have hperm : ((xs ++ ys).map Task.write).Perm (zs.map Task.write) := (hz.map Task.write).symm
  have hap := (carried_apart hr zs hc).2
  have hap' : ((xs ++ ys).map Task.write).Pairwise
      (fun a b : WriteReq => Apart a.1 a.2.length b.1 b.2.length) :=
    (hperm.pairwise_iff (by intro a b hab; exact hab.symm)).2 hap
  rw [List.map_append] at hap'
  have hwr : writes tr = xs.map Task.write := by
    rw [← ran_writes, ← hx, List.map_map]; rfl
  have hfile : s.file = some (writeAll (writes tr)) := by
    cases run_inv' hL h with
    | pre i hcm hq hi views len => rw [(quiet_empty hq).2.1] at hd; cases hd
    | failed x hcm hq hb' views hfile len => rw [(quiet_empty hq).2.1] at hd; cases hd
    | post g pt hcm hp => exact hp.file
  refine ⟨_, _, hfile, h3', ?_⟩
  intro i h1 h2 h3
  obtain ⟨e1, e2⟩ := writes_stay _ _ hap' x.write (List.mem_map.2 ⟨x, hxm, rfl⟩) i
    (by rw [hwx]; exact h1) (by rw [hwx]; simp only; omega)
  rw [hwr]
  have e3 := (C20_determined_partial j zs xs' hc h1' (xs.map Task.write ++ ys.map Task.write) _
    (by rw [← List.map_append]; exact hperm) h2').2 i h3
  refine ⟨?_, e1.trans e3⟩
  rw [e2, hwx]
  have : i - startOf l < dl.length := by omega
  exact ⟨_, List.getElem?_eq_getElem this⟩

/-- **C41** ... and in the same run none of those bytes, padding included, is changed any more. -/
theorem C41_done_bytes_stay (j : Job cfg.env cfg.fs base root S g b mx c bundles)
    (hl : Launchable cfg b archive) {more : List Ev} {s' : Sys}
    (h : CreateRun cfg eager b archive base (bundles.map printBundle) file0 tr s)
    (h' : CreateRun cfg eager b archive base (bundles.map printBundle) file0 (tr ++ more) s')
    (l : List Order) (hlb : l ∈ bundles) (hd : DoneBundle tr l) :
    ∃ f f', s.file = some f ∧ s'.file = some f' ∧
      ∀ i, startOf l ≤ i → i < up512 (endOf l) → f[i]? = f'[i]? := by
  have hL := job_launch j hl
  obtain ⟨xs, ys, zs, hx, hz, hc⟩ := run_tasks j hl h'
  obtain ⟨r, hd⟩ := hd
  have hfile : ∀ (tr : List Ev) (s : Sys), CreateRun cfg eager b archive base (bundles.map printBundle) file0 tr s →
      (r, printBundle l) ∈ executed tr → s.file = some (writeAll (writes tr)) := by
    intro tr s h hd
    cases run_inv' hL h with
    | pre i hcm hq hi views len => rw [(quiet_empty hq).2.1] at hd; cases hd
    | failed x hcm hq hb' views hfile len => rw [(quiet_empty hq).2.1] at hd; cases hd
    | post g pt hcm hp => exact hp.file
  have hd' : (r, printBundle l) ∈ executed (tr ++ more) := by
    unfold executed at hd ⊢
    rw [List.filterMap_append]; exact List.mem_append_left _ hd
  have hran : ran (tr ++ more) = ran tr ++ ran more := by unfold ran; rw [List.filterMap_append]
  have hwrites : writes (tr ++ more) = writes tr ++ writes more := by
    unfold writes; rw [List.filterMap_append]
  rw [hran] at hx
  obtain ⟨x1, x2, rfl, hx1, hx2⟩ := List.map_eq_append_iff.1 hx
  have hmem : printBundle l ∈ (ran tr).map Prod.fst := by
    rw [ran_text]; exact List.mem_map.2 ⟨_, hd, rfl⟩
  rw [← hx1, List.map_map] at hmem
  obtain ⟨x, hxm, hxp⟩ := List.mem_map.1 hmem
  have hxp : printBundle x.bundle = printBundle l := hxp
  have hxz : x ∈ zs := hz.mem_iff.2 (by simp [hxm])
  have hxb : x.bundle ∈ bundles := by rw [← hc.1]; exact List.mem_map.2 ⟨x, hxz, rfl⟩
  obtain ⟨_, _, hr⟩ := j.setup
  have hw1 := (hc.2 x hxz)
  obtain ⟨dl, hdl, hlen, _⟩ := run_bundle hr l hlb x.memory hw1.1
  have hw2 := hw1.2
  rw [job_received j _ hxb, hxp, ← job_received j _ hlb, hdl] at hw2
  have hwx : x.write = (startOf l, dl) := (Except.ok.inj hw2).symm
  have hap := (carried_apart hr zs hc).2
  have hap' : ((x1 ++ x2 ++ ys).map Task.write).Pairwise
      (fun a b : WriteReq => Apart a.1 a.2.length b.1 b.2.length) :=
    ((hz.map Task.write).symm.pairwise_iff (by intro a b hab; exact hab.symm)).2 hap
  rw [List.map_append, List.map_append] at hap'
  have hw1' : writes tr = x1.map Task.write := by rw [← ran_writes, ← hx1, List.map_map]; rfl
  have hw2' : writes more = x2.map Task.write := by rw [← ran_writes, ← hx2, List.map_map]; rfl
  refine ⟨_, _, hfile tr s h hd, hfile _ s' h' hd', ?_⟩
  intro i h1 h2
  rw [hwrites, hw1', hw2']
  exact (writes_stay _ _ (List.pairwise_append.1 hap').1 x.write (List.mem_map.2 ⟨x, hxm, rfl⟩) i
    (by rw [hwx]; exact h1) (by rw [hwx]; simp only; omega)).1

end

/-! ### a concrete run -/

/-- Rank 0 and two workers. -/
def demoCfg : Cfg := ⟨3, demoEnv2, demoFs, true⟩

theorem demo_launchable : Launchable demoCfg 102400 [97] := by
  constructor <;> decide

theorem demo_job' : Job demoCfg.env demoCfg.fs demoBase demoTree demoSort2 (fun _ => 0) 102400 3 demoC demoBundles :=
  demo_job

/-- The concrete job is a launch, can be worked off, and has a run that ends with success; so the
hypotheses of the theorems on runs are met. -/
example : Launch demoCfg 102400 [97] demoBase (demoBundles.map printBundle) ∧
    Workable demoCfg 102400 demoBase (demoBundles.map printBundle) ∧
    ∃ tr s, CreateRun demoCfg true 102400 [97] demoBase (demoBundles.map printBundle) none tr s ∧
      Finished demoCfg 0 s ∧ (executed tr).length = 2 ∧ ∃ A, s.file = some A ∧ A ≠ [] := by
  have hL := job_launch demo_job' demo_launchable
  refine ⟨hL, job_workable demo_job', ?_⟩
  obtain ⟨_, _, tr, s, h, hf⟩ := C19_runs_succeed demo_job' demo_launchable (by decide) rfl Run.nil
  rw [List.nil_append] at h
  refine ⟨tr, s, h, hf, ?_, ?_⟩
  · have h1 := C22_exactly_once hL h hf.1
    have h2 := congrArg List.length h1.1
    have h3 := h1.2.length_eq
    simp only [List.length_map] at h2
    rw [h3, h2]; rfl
  · obtain ⟨A, ms, objs, h1, h2, h3, h4, h5, h6⟩ := C19_every_successful_run demo_job' demo_launchable h hf.1
    refine ⟨A, h1, ?_⟩
    rintro rfl
    have hm := (h5 [[98]] (.reg ⟨420, 0, 0, 0⟩ [1, 2, 3])).2
      ⟨.step (.there (.there (.here (by decide) (by decide)))) (.self _), by simp [describe]⟩
    have hms : ms = [] := by
      have : readArchive [] = some ([] : List Member) := by decide +kernel
      rw [this] at h2; exact (Option.some.inj h2).symm
    rw [hms] at h3
    cases objs with
    | nil => cases hm
    | cons x l => simp at h3

/-- A run that meets an existing archive, and one that has no worker, exist too. -/
example : (∃ tr s, CreateRun demoCfg true 102400 [97] demoBase (demoBundles.map printBundle) (some [1, 2]) tr s ∧
      Finished demoCfg 1 s) ∧
    Launch { demoCfg with ranks := 1 } 102400 [97] demoBase (demoBundles.map printBundle) := by
  have hL := job_launch demo_job' demo_launchable
  refine ⟨?_, ?_⟩
  · obtain ⟨more, s, h, hf⟩ := C25_reaches_end (file0 := some [1, 2]) (eager := true) hL (job_workable demo_job')
      (by decide) Run.nil
    rw [List.nil_append] at h
    refine ⟨more, s, h, ?_⟩
    rcases hf with hf | hf
    · exact absurd hf.1 (C28_existing_archive_untouched hL _ h).2.2
    · exact hf
  · exact ⟨by decide, by decide, hL.bucket, hL.bucketInt, hL.archiveText, hL.baseText, hL.orderText⟩

end Parfu.Props
