/-
Concrete cases of the theorems on runs: each example applies the theorems it names to the demonstration
job (three directories, a link and two files, in two bundles, for two workers) or to one of its variants,
so their hypotheses are met by a case that is not trivial.
-/
import Verif.PropsFits
import Verif.PropsSlow
import Verif.PropsWireRun
import Verif.PropsReads
import Verif.PropsOpenFiles
import Verif.PropsDescriptors
import Verif.PropsInterrupt
import Verif.PropsShrink
import Verif.PropsSilent
set_option autoImplicit false

namespace Parfu.Props
open Parfu MoveSpec TarSpec ScanSpec PlanSpec ProtocolSpec WireSpec FaultsSpec MainSpec

/-- A finished run of the demonstration job. -/
theorem case_finished (cfg : Cfg) (he : cfg.env = demoEnv2) (hf : cfg.fs = demoFs) (hc : cfg.creatable = true)
    (hl : Launchable cfg 102400 [97]) (h2 : 2 ≤ cfg.ranks) :
    ∃ tr s, CreateRun cfg true 102400 [97] demoBase (demoBundles.map printBundle) none tr s ∧ Finished cfg 0 s := by
  have j : Job cfg.env cfg.fs demoBase demoTree demoSort2 (fun _ => 0) 102400 3 demoC demoBundles := by
    rw [he, hf]; exact demo_job
  obtain ⟨_, _, tr, s, h, hfin⟩ := C19_runs_succeed j hl h2 hc Run.nil
  exact ⟨_, s, h, hfin⟩

/-- A run of it in which one worker is at work on the first bundle and the other has done its own. -/
theorem case_working : ∃ tr s r, CreateRun demoCfg true 102400 [97] demoBase (demoBundles.map printBundle) none tr s ∧
    demoCfg.worker r ∧ (s.w r).stat = .working (printBundle (demoBundles.head (by decide))) ∧
    ((executed tr).map Prod.snd ++ [printBundle (demoBundles.head (by decide))]).Perm (demoBundles.map printBundle) := by
  have hL := job_launch demo_job' demo_launchable
  obtain ⟨tr, s, h, hf⟩ := case_finished demoCfg rfl rfl rfl demo_launchable (by decide)
  exact C66_every_bundle_can_be_missing hL (job_workable demo_job') (by decide) h hf.1 _
    (List.mem_map.2 ⟨_, List.head_mem _, rfl⟩)

/-- A bundle of that run has been carried out. -/
theorem case_done : ∃ tr s l, CreateRun demoCfg true 102400 [97] demoBase (demoBundles.map printBundle) none tr s ∧
    s.boss ≠ .exit 0 ∧ l ∈ demoBundles ∧ DoneBundle tr l := by
  have hL := job_launch demo_job' demo_launchable
  obtain ⟨tr, s, r, h, hr, hw, hp⟩ := case_working
  have hlen := hp.length_eq
  have h2 : (demoBundles.map printBundle).length = 2 := rfl
  rw [h2, List.length_append, List.length_map, List.length_singleton] at hlen
  obtain ⟨x, hx⟩ := List.exists_mem_of_length_pos (l := executed tr) (by omega)
  have : x.2 ∈ demoBundles.map printBundle :=
    hp.mem_iff.1 (List.mem_append_left _ (List.mem_map.2 ⟨x, hx, rfl⟩))
  obtain ⟨l, hl, hle⟩ := List.mem_map.1 this
  refine ⟨tr, s, l, h, ?_, hl, x.1, ?_⟩
  · intro hb
    have h1 := C22_exactly_once hL h hb
    have h3 := congrArg List.length h1.1
    have h4 := h1.2.length_eq
    rw [List.length_map, h2] at h3
    omega
  · rw [hle]; exact hx

/-- C22, C23, C25, C26: what has been dispatched, executed and acknowledged while a worker is at work on a
bundle; nothing has been sent to that worker, and the run can go on. -/
example : ∃ tr s r, CreateRun demoCfg true 102400 [97] demoBase (demoBundles.map printBundle) none tr s ∧
    demoCfg.worker r ∧ (ofRank r (dispatched tr)).length ≤ (acknowledged tr).count r + 1 ∧
    (∃ n, (dispatched tr).map Prod.snd = (demoBundles.map printBundle).take n) ∧
    s.pq r = [] ∧ s.bq r = [] ∧ (∃ e s', Step demoCfg false s e s') ∧
    tr.length ≤ (2 * 3 + 6) * (8 + 6 * 3 + 3 * 2) := by
  have hL := job_launch demo_job' demo_launchable
  obtain ⟨tr, s, r, h, hr, hw, _⟩ := case_working
  obtain ⟨k1, k2⟩ := C23_buffer_not_shared hL h r hr _ hw
  refine ⟨tr, s, r, h, hr, (C23_one_in_hand hL h r hr).1, (C22_dispatch_in_order hL h).1, k1, k2, ?_, C25_bounded hL h⟩
  rcases C25_no_deadlock hL (job_workable demo_job') (by decide) h with hf | hf | hf
  · have := hf.2 r hr; rw [hw] at this; cases this
  · have := hf.2 r hr; rw [hw] at this; cases this
  · exact hf

/-- C24, C25, C26, C28: the finished run.  Every bundle was executed before anyone was told to stop, everyone
was told to, the writes were made with the settings of the launch, and the archive is what they wrote. -/
example : ∃ tr s, CreateRun demoCfg true 102400 [97] demoBase (demoBundles.map printBundle) none tr s ∧
    shutdowns tr = [1, 2] ∧ (dispatched tr).map Prod.snd = demoBundles.map printBundle ∧
    (acknowledged tr).length = 2 ∧ s.file = some (writeAll (writes tr)) ∧
    (∀ r t ba ar memory w, Ev.wrote r t ba ar memory w ∈ tr → ba = demoBase ∧ ar = [97]) ∧
    (Finished demoCfg 0 s ∨ Finished demoCfg 1 s ∨ ∃ e s', Step demoCfg false s e s') := by
  have hL := job_launch demo_job' demo_launchable
  obtain ⟨tr, s, h, hf⟩ := case_finished demoCfg rfl rfl rfl demo_launchable (by decide)
  have h1 := (C26_everyone_told_to_stop hL h).1 hf.1
  have h2 := C24_shutdown_after_work hL h (by rw [h1]; decide)
  refine ⟨tr, s, h, h1, h2.1, h2.2.2, C28_new_archive_is_the_writes hL h hf.1, ?_, ?_⟩
  · intro r t ba ar memory w he
    have := C26_configured_before_work hL h r t ba ar memory w he
    exact ⟨this.1, this.2.1⟩
  · refine C25_only_failure_stops hL (by decide) h (fun r hr e hd => ?_)
    have := hf.2 r hr; rw [hd] at this; cases this

/-- C24, C13: the tree whose bundle overruns the bucket.  Its run comes to a stop with a failed worker;
nobody was told to stop and rank 0 has not ended with status 0. -/
example (S : StdSort Ref) : ∃ tr s r e, CreateRun ⟨3, demoEnv2, ovFs (List.replicate 101375 1) (List.replicate 101376 2), true⟩
      true 102400 [97] demoBase (ovBundles.map printBundle) none tr s ∧ (s.w r).stat = .dead e ∧ shutdowns tr = [] ∧ s.boss ≠ .exit 0 := by
  let cfg : Cfg := ⟨3, demoEnv2, ovFs (List.replicate 101375 1) (List.replicate 101376 2), true⟩
  have j : AnyJob cfg.env cfg.fs demoBase (ovTree (List.replicate 101375 1) (List.replicate 101376 2)) S (fun _ => 0) 102400 2
    ovColl ovBundles := ov_job S List.length_replicate List.length_replicate
  have hl : Launchable cfg 102400 [97] := by constructor <;> decide
  have hL : Launch cfg 102400 [97] demoBase (ovBundles.map printBundle) := anyJob_launch j hl
  obtain ⟨tr, s, h, hs⟩ := reaches_stuck (file0 := none) hL Run.nil
  obtain ⟨l, hlb, hbig⟩ := ov_overflow
  obtain ⟨r, hr, e, hd⟩ := C13_overflow_kills j hl (by decide) rfl h l hlb (by omega) hs
  have := C24_failure_blocks hL h r hr e hd
  exact ⟨_, s, r, e, h, hd, this.1, C13_overflow_never_succeeds j hl h l hlb (by omega)⟩

/-- C13: the bundle that overruns the bucket is undefined behaviour for any worker, and no run of the job
succeeds; the demonstration job has successful runs. -/
example (S : StdSort Ref) : (∃ l ∈ ovBundles, ∀ memory : Bytes, memory.length = 102400 →
      workerDo demoEnv2 (ovFs (List.replicate 101375 1) (List.replicate 101376 2)) demoBase memory (printBundle l) = .error .ub) ∧
    (¬ ∃ tr s, CreateRun ⟨3, demoEnv2, ovFs (List.replicate 101375 1) (List.replicate 101376 2), true⟩ true 102400 [97] demoBase
      (ovBundles.map printBundle) none tr s ∧ s.boss = .exit 0) ∧
    ∃ tr s, CreateRun demoCfg true 102400 [97] demoBase (demoBundles.map printBundle) none tr s ∧ s.boss = .exit 0 := by
  let cfg : Cfg := ⟨3, demoEnv2, ovFs (List.replicate 101375 1) (List.replicate 101376 2), true⟩
  have j : AnyJob cfg.env cfg.fs demoBase (ovTree (List.replicate 101375 1) (List.replicate 101376 2)) S (fun _ => 0) 102400 2
    ovColl ovBundles := ov_job S List.length_replicate List.length_replicate
  have hl : Launchable cfg 102400 [97] := by constructor <;> decide
  obtain ⟨l, hlb, hbig⟩ := ov_overflow
  have hfit : ∀ o ∈ ovBundles.flatten, FitsInt o := by
    have : ∀ o ∈ ovBundles.flatten, decide (FitsInt o) = true := by unfold FitsInt; decide +kernel
    exact fun o ho => of_decide_eq_true (this o ho)
  refine ⟨⟨l, hlb, fun memory hm => ?_⟩, ?_, ?_⟩
  · exact (C13_worker_outcome (cfg := cfg) j l hlb memory hm).2.1 (fun o ho => hfit o (List.mem_flatten.2 ⟨l, hlb, ho⟩)) (by omega)
  · intro h
    have := ((C13_success_iff j hl (by decide) rfl).1 h).1 l hlb
    omega
  · have j' : AnyJob demoCfg.env demoCfg.fs demoBase demoTree demoSort2 (fun _ => 0) 102400 3 demoC demoBundles :=
      ⟨demo_job'.tree, demo_job'.luck, demo_job'.blocks, demo_job'.scanned, demo_job'.planned, demo_job'.msgs⟩
    exact (C13_success_iff j' demo_launchable (by decide) rfl).2 ⟨demo_job'.fits, demo_job'.small⟩

/-- C28: an archive that exists is refused. -/
example : ∃ tr s, CreateRun demoCfg true 102400 [97] demoBase (demoBundles.map printBundle) (some [1, 2]) tr s ∧
    Finished demoCfg 1 s := by
  have hL := job_launch demo_job' demo_launchable
  obtain ⟨tr, s, h, hs⟩ := reaches_stuck (file0 := some [1, 2]) hL Run.nil
  exact ⟨_, s, h, C28_refused hL (job_workable demo_job') (by decide) [1, 2] h hs⟩

/-- C25: without a worker the run stops without an end. -/
example : ∃ tr s, CreateRun { demoCfg with ranks := 1 } true 102400 [97] demoBase (demoBundles.map printBundle) none tr s ∧
    Stuck { demoCfg with ranks := 1 } s ∧ s.boss ≠ .exit 0 ∧ s.boss ≠ .exit 1 := by
  have hL := job_launch demo_job' demo_launchable
  have hL1 : Launch { demoCfg with ranks := 1 } 102400 [97] demoBase (demoBundles.map printBundle) :=
    ⟨by decide, by decide, hL.bucket, hL.bucketInt, hL.archiveText, hL.baseText, hL.orderText⟩
  obtain ⟨_, _, more, s', h1, h2, h3, h4⟩ := C25_no_worker_hangs (file0 := none) hL1 rfl (by decide) rfl Run.nil
  exact ⟨_, s', h1, h2, h3, h4⟩

/-- C40: letters a worker does not know change nothing, and 'X' ends a waiting worker. -/
example (w : WSt) (hw : w.stat = .wait) : [[90], [], [81, 1]].foldl onBcast w = w ∧ [[65], [90, 1]].foldl onSend w = w ∧
    (onSend w [88]).stat = .ended 0 ∧ (onBcast w [88]).stat = .ended 0 ∧
    (onBcast w [65, 97, 0]).bucket = w.bucket ∧ (onSend w [80, 97, 0]).mode = w.mode := by
  refine ⟨C40_unknown_bcast_ignored w _ (by decide), C40_unknown_send_ignored w _ (by decide),
    (C40_only_X_ends w [88] hw 0).2.2 (.inl ⟨rfl, rfl⟩), (C40_only_X_ends w [88] hw 0).1.2 ⟨rfl, rfl⟩, ?_, ?_⟩
  · exact (C40_settings_change_only_as_told w _).1 (by decide)
  · exact (C40_settings_change_only_as_told w _).2.2.2.2.2.2.2 (by decide)

/-- C20, C21, C41, C63: a finished run with two workers and one with three, and one cut off after a bundle. -/
example : ∃ tr s tr' s' tr'' s'' l A A' f, CreateRun demoCfg true 102400 [97] demoBase (demoBundles.map printBundle) none tr s ∧
    CreateRun { demoCfg with ranks := 4 } true 102400 [97] demoBase (demoBundles.map printBundle) none tr' s' ∧
    CreateRun demoCfg true 102400 [97] demoBase (demoBundles.map printBundle) none tr'' s'' ∧ s''.boss ≠ .exit 0 ∧
    s.file = some A ∧ s'.file = some A' ∧ A.length = A'.length ∧ (∀ i, ¬ InnerPadding demoBundles i → A[i]? = A'[i]?) ∧
    terminated A = false ∧ l ∈ demoBundles ∧ s''.file = some f ∧
    (∀ i, startOf l ≤ i → i < up512 (endOf l) → ¬ InnerPadding demoBundles i → f[i]? = A[i]?) ∧
    ∃ ms, readArchive A = some ms ∧ ∃ m ∈ ms, m.path = [47, 116, 47, 98] := by
  have hl4 : Launchable { demoCfg with ranks := 4 } 102400 [97] := by constructor <;> decide
  obtain ⟨tr, s, h, hf⟩ := case_finished demoCfg rfl rfl rfl demo_launchable (by decide)
  obtain ⟨tr', s', h', hf'⟩ := case_finished { demoCfg with ranks := 4 } rfl rfl rfl hl4 (by decide)
  obtain ⟨tr'', s'', l, h'', hb'', hlb, hd⟩ := case_done
  obtain ⟨A, A', e1, e2, e3, e4⟩ := C20_any_two_runs_partial (cfg := demoCfg) (cfg' := { demoCfg with ranks := 4 }) rfl rfl demo_job'
    demo_launchable hl4 h hf.1 h' hf'.1
  obtain ⟨A1, k1, k2⟩ := C21_no_run_terminates_archive demo_job' demo_launchable h hf.1
  obtain ⟨f, A2, m1, m2, m3⟩ := C41_partial_archive_is_right (cfg := demoCfg) (cfg' := demoCfg) rfl rfl demo_job' demo_launchable
    demo_launchable h'' h hf.1 l hlb hd
  obtain ⟨A3, ms, n1, n2, n3, _⟩ := C63_success_means_archive_partial demo_job' demo_launchable h hf.1
  rw [e1] at k1 m2 n1
  cases k1; cases m2; cases n1
  refine ⟨tr, s, tr', s', tr'', s'', l, A, A', f, h, h', h'', hb'', e1, e2, e3, e4, k2, hlb, m1, ?_, ms, n2, ?_⟩
  · intro i h1 h2 h3; exact (m3 i h1 h2 h3).2
  · obtain ⟨m, q1, q2⟩ := n3 [[98]] (.reg ⟨420, 0, 0, 0⟩ [1, 2, 3])
      (.step (.there (.there (.here (by decide) (by decide)))) (.self _)) (by decide)
    refine ⟨m, q2, ?_⟩
    have : memberOf demoCfg.env demoBase [[98]] (.reg ⟨420, 0, 0, 0⟩ [1, 2, 3]) = some m := q1
    have h5 : (memberOf demoCfg.env demoBase [[98]] (.reg ⟨420, 0, 0, 0⟩ [1, 2, 3])).map (·.path) = some [47, 116, 47, 98] := by decide
    rw [this] at h5
    exact Option.some.inj h5

/-- C41: what the cut-off run has written stays when it goes on to the end. -/
example : ∃ tr s more s' l f f', CreateRun demoCfg true 102400 [97] demoBase (demoBundles.map printBundle) none tr s ∧
    CreateRun demoCfg true 102400 [97] demoBase (demoBundles.map printBundle) none (tr ++ more) s' ∧ Finished demoCfg 0 s' ∧
    s.file = some f ∧ s'.file = some f' ∧ l ∈ demoBundles ∧
    ∀ i, startOf l ≤ i → i < up512 (endOf l) → f[i]? = f'[i]? := by
  obtain ⟨tr, s, l, h, _, hlb, hd⟩ := case_done
  obtain ⟨_, _, more, s', h', hf'⟩ := C19_runs_succeed demo_job' demo_launchable (by decide) rfl h
  obtain ⟨f, f', e1, e2, e3⟩ := C41_done_bytes_stay demo_job' demo_launchable h h' l hlb hd
  exact ⟨tr, s, more, s', l, f, f', h, h', hf', e1, e2, hlb, e3⟩

/-- C65: the finished run passed a moment at which its archive read as an empty one. -/
example : ∃ tr s f, CreateRun demoCfg true 102400 [97] demoBase (demoBundles.map printBundle) none tr s ∧ s.file = some f ∧
    readArchive f = some [] := by
  obtain ⟨tr, s, h, hf⟩ := case_finished demoCfg rfl rfl rfl demo_launchable (by decide)
  obtain ⟨tr0, rest, s0, f0, A, m, more, _, h1, h2, h3, _⟩ := C65_reads_as_empty demo_job' demo_launchable h hf.1
  exact ⟨tr0, s0, f0, h1, h2, h3⟩

/-- C66: the worker at work on the first bundle never goes on; the other one goes on until all that is left
to do is that bundle. -/
example : ∃ tr s r, CreateRun demoCfg true 102400 [97] demoBase (demoBundles.map printBundle) none tr s ∧
    demoCfg.worker r ∧ (dispatched tr).map Prod.snd = demoBundles.map printBundle ∧
    ∃ t, ofRank r (dispatched tr) = ofRank r (executed tr) ++ [t] ∧ t = printBundle (demoBundles.head (by decide)) := by
  have hL := job_launch demo_job' demo_launchable
  obtain ⟨tr, s, r, h, hr, hw, _⟩ := case_working
  have hr' : ∃ r', demoCfg.worker r' ∧ ¬ r' = r := by
    by_cases h1 : r = 1
    · exact ⟨2, ⟨by decide, by decide⟩, by omega⟩
    · exact ⟨1, ⟨by decide, by decide⟩, by omega⟩
  obtain ⟨more, s', k1, _, _, k4, _, k6⟩ := C66_others_go_on hL (job_workable demo_job') h (fun x => x = r)
    (fun x hx => by subst hx; exact ⟨hr, .inl ⟨_, hw⟩⟩) ⟨r, rfl⟩ hr'
  obtain ⟨t, q1, q2⟩ := k6 r rfl
  exact ⟨tr ++ more, s', r, k1, hr, k4, t, q1, (q2 _ hw).symm⟩

/-- C70: the finished run, call by call. -/
example : ∃ tr s, CreateWireRun demoCfg false 102400 [97] demoBase (demoBundles.map printBundle) none tr s ∧ Ended demoCfg 0 s ∧
    (dispatched (seen tr)).map Prod.snd = demoBundles.map printBundle ∧ (executed (seen tr)).length = 2 ∧
    (∀ r, WEv.misread r ∉ tr) ∧ tr.length ≤ 2 * ((2 * 3 + 6) * (8 + 6 * 3 + 3 * 2)) + 3 ∧
    (∃ A ms, s.file = some A ∧ readArchive A = some ms ∧ ms ≠ []) := by
  have hL := job_launch demo_job' demo_launchable
  have hS : ShortTexts [97] demoBase (demoBundles.map printBundle) := job_short demo_job' (by decide)
  obtain ⟨_, _, tr, s, h, hf⟩ := C70_runs_succeed (eager := false) demo_job' demo_launchable (by decide) (by decide) rfl WRun.nil
  rw [List.nil_append] at h
  have h1 := C70_exactly_once hL hS h hf.1
  obtain ⟨A, ms, objs, k1, k2, k3, _, k5, _⟩ := C70_every_successful_run demo_job' demo_launchable (by decide) h hf.1
  refine ⟨tr, s, h, hf, h1.1, ?_, ?_, C70_bounded hL hS h, A, ms, k1, k2, ?_⟩
  · have := congrArg List.length h1.1
    rw [List.length_map, ← h1.2.1.length_eq] at this
    rw [this]; rfl
  · intro r
    exact (C70_lengths_match (short_bossRun (by decide) hS) (start_unsent _ _) h r).2
  · rintro rfl
    have : objs = [] := by simpa using k3.symm
    subst this
    have := (k5 [] demoTree).2 ⟨.self _, by simp [demoTree, describe]⟩
    cases this

/-- C71: the run cut off after a bundle, all its further writes failing, is reported as a success; each byte
of its archive is the byte of a write that was made, and no one can tell it from a run without failures. -/
example : ∃ trF s f, FaultyRun demoCfg true 102400 [97] demoBase (demoBundles.map printBundle) none trF s ∧
    Finished demoCfg 0 s ∧ s.file = some f ∧
    (∀ v ∈ writesF trF, ∀ i, v.1 ≤ i → i < v.1 + v.2.length → f[i]? = v.2[i - v.1]?) ∧
    ∃ tr g, CreateRun demoCfg true 102400 [97] demoBase (demoBundles.map printBundle) none tr (s.withFile g) := by
  have hL := job_launch demo_job' demo_launchable
  obtain ⟨tr, s, l, h, _, hlb, hd⟩ := case_done
  obtain ⟨_, _, more, s2, h2, hf2⟩ := C19_runs_succeed demo_job' demo_launchable (by decide) rfl h
  obtain ⟨f, _, e1, _, _⟩ := C41_done_bytes_stay demo_job' demo_launchable h h2 l hlb hd
  obtain ⟨trF, s', k1, k2, k3, _⟩ := C71_interruption_reported_as_success hL (job_workable demo_job') (by decide) h e1
  obtain ⟨tr1, g, q1, _⟩ := C71_unnoticed hL (job_workable demo_job') k1
  exact ⟨_, s', f, k1, k2, k3, (C71_damage_is_local demo_job' demo_launchable k1 k3).1, tr1, g, q1⟩

/-- C64: with the file system changed after the scan the run ends with status 0, and everything scanned was
still there. -/
example : ∃ tr s, CreateRun { demoCfg with fs := laterFs } true 102400 [97] demoBase (demoBundles.map printBundle) none tr s ∧
    Finished { demoCfg with fs := laterFs } 0 s ∧ ∃ n', laterFs (demoBase ++ [47] ++ pathText [[98]]) = some n' := by
  have hl : Launchable { demoCfg with fs := laterFs } 102400 [97] := by constructor <;> decide
  obtain ⟨⟨more, s, h1, h2⟩, _⟩ := C64_same_blocks_partial (cfg := { demoCfg with fs := laterFs }) (fs0 := demoFs) (archive := [97])
    demo_job' hl (by decide) rfl later_now Run.nil
  obtain ⟨n', k, _⟩ := C64_success_means_present (cfg := { demoCfg with fs := laterFs }) (fs0 := demoFs) demo_job' hl h1 h2.1
    (p := [[98]]) (n := .reg ⟨420, 0, 0, 0⟩ [1, 2, 3])
    (.step (.there (.there (.here (by decide) (by decide)))) (.self _)) (by decide)
  exact ⟨_, s, h1, h2, n', k⟩

/-- C72: a run of the whole program with three descriptors that ends with status 0 is one of the program
without the limit. -/
example : ∃ tr s, LimitedRun demoSort2 (fun _ => 0) (fun _ => demoTree) 7 3 [archivefile ++ [61, 97], [47, 116]] demoCfg true none tr s ∧
    s.boss = .exit 0 ∧ MainRun demoSort2 (fun _ => 0) (fun _ => demoTree) 7 [archivefile ++ [61, 97], [47, 116]] demoCfg true none tr s := by
  have h := (C19_whole_program (S := demoSort2) (g := fun _ => 0) (look := fun _ => demoTree) (mx0 := 7)
      (args := [archivefile ++ [61, 97], [47, 116]]) (c := demoCfg) (t := [47, 116]) (o := ⟨4992000, 7, [97]⟩)
      (by unfold ShortArgs; decide) (by decide +kernel) (by decide) (by decide) (by decide) (by decide)
      demo_shortTree (fun _ => rfl) demo_total (by decide) (by decide) rfl Run.nil).2.1
  obtain ⟨more, s, h1, h2⟩ := h
  have hl := (C72_enough_descriptors_partial (free := 3) (by decide) (fun _ _ _ => by decide)).2 h1
  exact ⟨_, s, hl, h2.1, (C72_status_0_saw_everything (t := [47, 116]) (o := ⟨4992000, 7, [97]⟩) (by decide) (by decide) (by decide)
    (by decide +kernel) (by decide) demo_text (fun _ => rfl) (by decide) (by decide) hl h2.1).2⟩

end Parfu.Props
