/-
Property theorems C27 (exits of the main program) and C19 from the command line on.
-/
import Verif.PropsMain
set_option autoImplicit false

namespace Parfu.Props
open Parfu MainSpec MoveSpec TarSpec ScanSpec PlanSpec ProtocolSpec

section
variable {c : Cfg} {eager : Bool} {tr : List Ev} {s : Sys}

/-- The message of the abort broadcast. -/
abbrev mAbort : Bytes := sendMsg [88] [97, 98, 111, 114, 116]

/-- After the abort broadcast. -/
structure Aborted (c : Cfg) (tr : List Ev) (s : Sys) : Prop where
  boss : s.boss = .exit 1
  w : ∀ r, c.worker r → ((s.w r = WSt.init ∧ s.bq r = [mAbort]) ∨ ((s.w r).stat = .ended 0 ∧ s.bq r = []))
  pq : ∀ r, s.pq r = []
  pend : ∀ r, s.pend ≠ some (.one r)
  len : tr.length + (if s.pend.isSome then 1 else 0) + ∑ r ∈ Finset.Ico 1 c.ranks, (s.bq r).length ≤ 1 + c.ranks

theorem sum_one (n : Nat) (f : Nat → Nat) (h : ∀ r, f r = 1) : ∑ r ∈ Finset.Ico 1 n, f r = n - 1 := by
  simp [h]

theorem sum_dec (n r : Nat) (hr : 1 ≤ r ∧ r < n) (f f' : Nat → Nat) (h1 : ∀ q, q ≠ r → f' q = f q)
    (h2 : f' r + 1 = f r) : ∑ q ∈ Finset.Ico 1 n, f' q + 1 = ∑ q ∈ Finset.Ico 1 n, f q := by
  have hm : r ∈ Finset.Ico 1 n := Finset.mem_Ico.2 hr
  rw [← Finset.add_sum_erase _ f hm, ← Finset.add_sum_erase _ f' hm]
  have : ∑ q ∈ (Finset.Ico 1 n).erase r, f' q = ∑ q ∈ (Finset.Ico 1 n).erase r, f q :=
    Finset.sum_congr rfl (fun q hq => h1 q (Finset.mem_erase.1 hq).1)
  omega

theorem abort_inv {f0 : Option Bytes} (hr1 : 1 ≤ c.ranks)
    (h : Run c eager (Sys.start (.bcast mAbort (.exit 1)) f0) tr s) :
    (tr = [] ∧ s = Sys.start (.bcast mAbort (.exit 1)) f0) ∨ Aborted c tr s := by
  induction h with
  | nil => exact Or.inl ⟨rfl, rfl⟩
  | @snoc tr s s' e h st ih =>
    right
    rcases ih with ⟨rfl, rfl⟩ | A
    · cases st with
      | bcast m k hp hb =>
        simp only [Sys.start, Boss.bcast.injEq] at hb
        obtain ⟨rfl, rfl⟩ := hb
        refine ⟨rfl, fun r _ => Or.inl ⟨rfl, rfl⟩, fun r => rfl, fun r h => (by cases h), ?_⟩
        have := sum_one c.ranks (fun r => ((Sys.start (.bcast mAbort (.exit 1)) f0).bq r ++ [mAbort]).length)
          (fun r => rfl)
        simp only [this]
        simp
        omega
      | bcastDone hp hq => cases hp
      | send r m k hp hb hr => cases hb
      | sendBad r m k hp hb hr => cases hb
      | sendDone r hp hq => cases hp
      | recv k l1 l2 r a hp hb ha => cases hb
      | openFile name k hp hb hw => cases hb
      | getBcast r m rest hr hs hm hq => cases hq
      | getSend r m rest hr hs hm hq => cases hq
      | work r text name memory old write hr hs hf hm ho hd => cases hs
      | workFails r text memory e hr hs hm hd => cases hs
      | ackDone r hr hs hq => cases hs
    · cases st with
      | bcast m k hp hb => rw [A.boss] at hb; cases hb
      | bcastDone hp hq =>
        refine ⟨A.boss, A.w, A.pq, fun r h => (by cases h), ?_⟩
        have := A.len
        rw [hp] at this
        simp only [List.length_append, List.length_singleton, Option.isSome] at this ⊢
        simpa using this
      | send r m k hp hb hr => rw [A.boss] at hb; cases hb
      | sendBad r m k hp hb hr => rw [A.boss] at hb; cases hb
      | sendDone r hp hq => exact absurd hp (A.pend r)
      | recv k l1 l2 r a hp hb ha => rw [A.boss] at hb; cases hb
      | openFile name k hp hb hw => rw [A.boss] at hb; cases hb
      | getBcast r m rest hr hs hm hq =>
        rcases A.w r hr with ⟨h1, h2⟩ | ⟨h1, h2⟩
        · rw [h2] at hq
          simp only [List.cons.injEq] at hq
          obtain ⟨rfl, rfl⟩ := hq
          refine ⟨A.boss, ?_, A.pq, A.pend, ?_⟩
          · intro q hq
            by_cases hqr : q = r
            · subst hqr
              right
              simp only [Function.update_self]
              rw [h1]
              exact ⟨by decide, trivial⟩
            · simp only [Function.update_of_ne hqr]
              exact A.w q hq
          · have := sum_dec c.ranks r hr (fun q => (s.bq q).length)
              (fun q => (Function.update s.bq r [] q).length)
              (fun q hq => by simp only [Function.update_of_ne hq])
              (by simp only [Function.update_self, h2]; rfl)
            have hl := A.len
            simp only [List.length_append, List.length_singleton]
            omega
        · rw [h2] at hq; cases hq
      | getSend r m rest hr hs hm hq => rw [A.pq r] at hq; cases hq
      | work r text name memory old write hr hs hf hm ho hd =>
        rcases A.w r hr with ⟨h1, _⟩ | ⟨h1, _⟩
        · rw [h1] at hs; cases hs
        · rw [h1] at hs; cases hs
      | workFails r text memory e hr hs hm hd =>
        rcases A.w r hr with ⟨h1, _⟩ | ⟨h1, _⟩
        · rw [h1] at hs; cases hs
        · rw [h1] at hs; cases hs
      | ackDone r hr hs hq =>
        rcases A.w r hr with ⟨h1, _⟩ | ⟨h1, _⟩
        · rw [h1] at hs; cases hs
        · rw [h1] at hs; cases hs

variable {S : StdSort Ref} {g : Bytes → UInt8} {look : Bytes → FNode} {mx0 : Nat} {args : List Bytes}
  {file0 : Option Bytes}

/-- A run of the program with these arguments. -/
abbrev MainRun (S : StdSort Ref) (g : Bytes → UInt8) (look : Bytes → FNode) (mx0 : Nat) (args : List Bytes)
    (c : Cfg) (eager : Bool) (file0 : Option Bytes) (tr : List Ev) (s : Sys) : Prop :=
  Run c eager (mainStart S g look mx0 c.ranks args file0) tr s

theorem file_untouched_abort (h : Run c eager (Sys.start (.bcast mAbort (.exit 1)) file0) tr s)
    (hr1 : 1 ≤ c.ranks) : s.file = file0 := by
  induction h with
  | nil => rfl
  | @snoc tr s s' e h st ih =>
    have hi := abort_inv hr1 h
    cases st with
    | openFile name k hp hb hw =>
      rcases hi with ⟨_, rfl⟩ | A
      · cases hb
      · rw [A.boss] at hb; cases hb
    | work r text name memory old write hr hs hf hm ho hd =>
      rcases hi with ⟨_, rfl⟩ | A
      · cases hs
      · rcases A.w r hr with ⟨h1, _⟩ | ⟨h1, _⟩ <;> rw [h1] at hs <;> cases hs
    | _ => exact ih

/-- **C27** With an option that is not known (after acceptable arguments), every worker is released:
no run is longer than 1 + ranks, and when nothing more can happen every process has ended, rank 0
with status 1; no file is touched. -/
theorem C27_bad_option_releases (hr1 : 1 ≤ c.ranks)
    (hp : parseArgs [] (defaultOpts mx0) args = .ok none)
    (h : MainRun S g look mx0 args c eager file0 tr s) :
    tr.length ≤ 1 + c.ranks ∧ s.file = file0 ∧ (Stuck c s → Finished c 1 s) ∧
    (Finished c 1 s ∨ ∃ e s', Step c false s e s') := by
  have hne : args ≠ [] := by rintro rfl; simp [parseArgs] at hp
  have hrun : Run c eager (Sys.start (.bcast mAbort (.exit 1)) file0) tr s := by
    have : mainStart S g look mx0 c.ranks args file0 = Sys.start (.bcast mAbort (.exit 1)) file0 := by
      unfold mainStart bossMain
      rw [if_neg hne, hp]
    rw [← this]; exact h
  have hfile := file_untouched_abort hrun hr1
  have key : (∀ e s', ¬ Step c false s e s') → Finished c 1 s := by
    intro hno
    rcases abort_inv hr1 hrun with ⟨_, rfl⟩ | A
    · exact absurd (.bcast _ _ _ rfl rfl) (hno _ _)
    · refine ⟨A.boss, ?_⟩
      intro r hr
      rcases A.w r hr with ⟨h1, h2⟩ | ⟨h1, _⟩
      · exact absurd (.getBcast s r _ _ hr (by rw [h1]; rfl) (by rw [h1]; rfl) h2) (hno _ _)
      · exact h1
  refine ⟨?_, hfile, ?_, ?_⟩
  · rcases abort_inv hr1 hrun with ⟨rfl, _⟩ | A
    · simp
    · have := A.len; omega
  · intro hs
    exact key (fun e s' hst => hs e s' hst.eager)
  · by_cases hx : ∃ e s', Step c false s e s'
    · exact Or.inr hx
    · left
      apply key
      intro e s' hst
      exact hx ⟨e, s', hst⟩

/-- **C27** Without any argument every process ends by itself, with status -42. -/
theorem C27_no_arguments (h : MainRun S g look mx0 [] c eager file0 tr s) :
    tr = [] ∧ s.boss = .exit 214 ∧ ∀ r, (s.w r).stat = .ended 214 := by
  have hs : mainStart S g look mx0 c.ranks [] file0 =
      { Sys.start (.exit 214) file0 with w := fun _ => { WSt.init with stat := .ended 214 } } := rfl
  unfold MainRun at h
  rw [hs] at h
  have : tr = [] ∧ s = { Sys.start (.exit 214) file0 with w := fun _ => { WSt.init with stat := .ended 214 } } := by
    induction h with
    | nil => exact ⟨rfl, rfl⟩
    | snoc h st ih =>
      exfalso
      obtain ⟨_, rfl⟩ := ih
      cases st <;> first
        | contradiction
        | simp_all [Sys.start]
  obtain ⟨rfl, rfl⟩ := this
  exact ⟨rfl, rfl, fun r => rfl⟩

/-- A program of rank 0 that does nothing leaves all workers waiting. -/
theorem idle_boss {p : Boss} (hp : (∃ n, p = .exit n) ∨ ∃ e, p = .fail e)
    (h : Run c eager (Sys.start p file0) tr s) : tr = [] ∧ s = Sys.start p file0 := by
  induction h with
  | nil => exact ⟨rfl, rfl⟩
  | snoc h st ih =>
    exfalso
    obtain ⟨_, rfl⟩ := ih
    rcases hp with ⟨n, rfl⟩ | ⟨n, rfl⟩ <;> cases st <;> first
      | contradiction
      | simp_all [Sys.start, WSt.init]

/-- All workers wait for ever. -/
def LeftWaiting (c : Cfg) (s : Sys) : Prop := Stuck c s ∧ ∀ r, c.worker r → (s.w r).stat = .wait

theorem idle_leftWaiting {p : Boss} (hp : (∃ n, p = .exit n) ∨ ∃ e, p = .fail e)
    (h : Run c eager (Sys.start p file0) tr s) : s.boss = p ∧ LeftWaiting c s := by
  obtain ⟨_, rfl⟩ := idle_boss hp h
  refine ⟨rfl, ?_, fun r _ => rfl⟩
  intro e s' hst
  have h2 : Run c true (Sys.start p file0) ([] ++ [e]) s' := .snoc .nil hst
  have := (idle_boss hp h2).1
  simp at this

/-- **C27, violated** Without an archive name, without a target, or with more than one, rank 0 exits
(5, 3 or 4) and tells nobody: the workers wait for a message that never comes. -/
theorem C27_workers_left_waiting (ts : List Bytes) (o : Opts) (hne : args ≠ [])
    (hp : parseArgs [] (defaultOpts mx0) args = .ok (some (ts, o)))
    (hbad : o.archive = [] ∨ ts.length ≠ 1)
    (h : MainRun S g look mx0 args c eager file0 tr s) :
    s.boss = .exit (if o.archive = [] then 5 else if ts = [] then 3 else 4) ∧ LeftWaiting c s := by
  have hs : mainStart S g look mx0 c.ranks args file0 =
      Sys.start (.exit (if o.archive = [] then 5 else if ts = [] then 3 else 4)) file0 := by
    unfold mainStart bossMain
    rw [if_neg hne, hp]
    congr 1
    by_cases ha : o.archive = []
    · simp [ha]
    · have : ¬ (o.archive.length < 1) := by
        intro h; apply ha; exact List.length_eq_zero_iff.1 (by omega)
      simp only [if_neg this, if_neg ha]
      match ts, hbad with
      | [], _ => rfl
      | [t], hbad => rcases hbad with h | h
                     · exact absurd h ha
                     · simp at h
      | t :: t' :: ts, _ => rfl
  unfold MainRun at h
  rw [hs] at h
  exact idle_leftWaiting (Or.inl ⟨_, rfl⟩) h

/-- **C27, violated** With a bucket size below 100000 there is no plan, and rank 0 dereferences the
null pointer; the workers are left waiting. -/
theorem C27_small_bucket_crashes (t : Bytes) (o : Opts) (hne : args ≠ [])
    (hp : parseArgs [] (defaultOpts mx0) args = .ok (some ([t], o))) (ha : o.archive ≠ [])
    (hg : ∀ r, g r = 0) (hb : o.bucket < 100000)
    (h : MainRun S g look mx0 args c eager file0 tr s) : s.boss = .fail .ub ∧ LeftWaiting c s := by
  have hs : mainStart S g look mx0 c.ranks args file0 = Sys.start (.fail .ub) file0 := by
    unfold mainStart bossMain
    rw [if_neg hne, hp]
    have : ¬ (o.archive.length < 1) := by
      intro h; apply ha; exact List.length_eq_zero_iff.1 (by omega)
    simp only [if_neg this]
    obtain ⟨d, hsp⟩ := spiderDir_ok g hg (look t) []
    obtain ⟨coll, hc⟩ := collect_ok t d
    have hsc : scan g t (look t) = .ok coll := by simp only [scan, hsp, hc]
    rw [hsc]
    simp only
    rw [(C16_refused_iff 0 o.bucket o.mx _).2 (Or.inl hb)]
  unfold MainRun at h
  rw [hs] at h
  exact idle_leftWaiting (Or.inr ⟨_, rfl⟩) h

/-- **C27, violated** A number option whose value is not a number in the range of an `int` makes rank
0 throw; the workers are left waiting. -/
theorem C27_bad_number_throws (e : Err) (hne : args ≠ [])
    (hp : parseArgs [] (defaultOpts mx0) args = .error e)
    (h : MainRun S g look mx0 args c eager file0 tr s) : s.boss = .fail e ∧ LeftWaiting c s := by
  have hs : mainStart S g look mx0 c.ranks args file0 = Sys.start (.fail e) file0 := by
    unfold mainStart bossMain
    rw [if_neg hne, hp]
  unfold MainRun at h
  rw [hs] at h
  exact idle_leftWaiting (Or.inr ⟨_, rfl⟩) h

/-- A plan is launched with the parsed options. -/
theorem mainStart_job {t : Bytes} {o : Opts} (hne : args ≠ [])
    (hp : parseArgs [] (defaultOpts mx0) args = .ok (some ([t], o))) (ha : o.archive ≠ [])
    {coll : Coll} {bundles : List (List Order)} (hsc : scan g t (look t) = .ok coll)
    (hpl : createOrders 0 o.bucket o.mx (setOffsets (orderFiles S coll)) = some bundles) :
    mainStart S g look mx0 c.ranks args file0 =
      Sys.start (bossRun c.ranks o.bucket o.archive t (bundles.map printBundle)) file0 := by
  unfold mainStart bossMain
  rw [if_neg hne, hp]
  have : ¬ (o.archive.length < 1) := by
    intro h; apply ha; exact List.length_eq_zero_iff.1 (by omega)
  simp only [if_neg this, hsc, hpl]

/-- **C27 (partial)** Whenever the arguments are usable - or one option is unknown - and the plan is
one the workers can carry out, every run that cannot go on has ended every worker.  Missing: the
exits of `C27_workers_left_waiting`, `C27_small_bucket_crashes` and `C27_bad_number_throws`, and
starts without a worker. -/
theorem C27_released_partial (hr2 : 2 ≤ c.ranks)
    (hcase : parseArgs [] (defaultOpts mx0) args = .ok none ∨
      ∃ t o coll bundles, parseArgs [] (defaultOpts mx0) args = .ok (some ([t], o)) ∧ o.archive ≠ [] ∧
        scan g t (look t) = .ok coll ∧
        createOrders 0 o.bucket o.mx (setOffsets (orderFiles S coll)) = some bundles ∧
        Launch c o.bucket o.archive t (bundles.map printBundle) ∧
        Workable c o.bucket t (bundles.map printBundle))
    (h : MainRun S g look mx0 args c eager file0 tr s) (hs : Stuck c s) :
    Finished c 0 s ∨ Finished c 1 s := by
  rcases hcase with hp | ⟨t, o, coll, bundles, hp, ha, hsc, hpl, hL, hW⟩
  · exact Or.inr ((C27_bad_option_releases (by omega) hp h).2.2.1 hs)
  · have hne : args ≠ [] := by rintro rfl; simp [parseArgs] at hp
    unfold MainRun at h
    rw [mainStart_job hne hp ha hsc hpl] at h
    rcases C25_no_deadlock hL hW hr2 h with h0 | h1 | ⟨e, s', hst⟩
    · exact Or.inl h0
    · exact Or.inr h1
    · exact absurd hst.eager (hs e s')

/-! ### C19 from the command line on -/

theorem bucket_blocks {ts : List Bytes} {o : Opts} (hs : ShortArgs args)
    (hp : parseArgs [] (defaultOpts mx0) args = .ok (some (ts, o))) : o.bucket % 512 = 0 := by
  have R := parse_result _ args hs ts o hp
  rcases unset_or_lastSet args bucketsize (by decide) with ⟨hu, _⟩ | ⟨v, hv⟩
  · rw [R.noBucket hu]; show 4992000 % 512 = 0; decide
  · obtain ⟨x, _, hb⟩ := R.bucket v hv
    rw [hb]
    unfold nextBlock blk
    split <;> omega

/-- **C19** The whole program.  Let the arguments name one target and an archive, with a bucket size
(given or default) from 100000 to below 2 GiB; let the target be a tree with full paths below 100
bytes, link targets of at most 100 bytes, no TABs in names and known owners, that takes less than
2 GiB as a tar file; let there be no file of the archive's name, at least one worker, and let the
uninitialised bytes after link targets be zero.  Then - whatever the uninitialised limit on orders
holds, whatever the schedule and the contents of the workers' memory - every run of the program can
be continued until all processes have ended normally, no run is endless, and a run that cannot go on
has left the tar file of exactly that tree. -/
theorem C19_whole_program {t : Bytes} {o : Opts} (hsa : ShortArgs args)
    (hp : parseArgs [] (defaultOpts mx0) args = .ok (some ([t], o))) (ha : o.archive ≠ [])
    (han : (0 : UInt8) ∉ o.archive) (hb1 : 100000 ≤ o.bucket) (hb2 : o.bucket < 2 ^ 31)
    (ht : ShortTree c.env c.fs t (look t)) (hg : ∀ r, g r = 0)
    (htotal : ∀ objs : List (List Bytes × FNode), (objs.map Prod.fst).Nodup →
      (∀ x ∈ objs, Seen (look t) x.1 x.2) → (objs.map (fun x => tarBytes x.2)).sum < 2 ^ 31)
    (hr2 : 2 ≤ c.ranks) (hrI : c.ranks < 2 ^ 31) (hc : c.creatable = true)
    (h : MainRun S g look mx0 args c true none tr s) :
    (∃ N, ∀ tr' s', MainRun S g look mx0 args c true none tr' s' → tr'.length ≤ N) ∧
    (∃ more s', MainRun S g look mx0 args c true none (tr ++ more) s' ∧ Finished c 0 s') ∧
    (Stuck c s → Finished c 0 s ∧
      ∃ (A : Bytes) (ms : List Member) (objs : List (List Bytes × FNode)),
        s.file = some A ∧ readArchive A = some ms ∧
        ms.map some = objs.map (fun x => memberOf c.env t x.1 x.2) ∧
        (objs.map Prod.fst).Nodup ∧
        (∀ p n, (p, n) ∈ objs ↔ Seen (look t) p n ∧ describe p n ≠ none) ∧
        (∀ pre x post, objs = pre ++ x :: post → pre ≠ [] →
          ∃ y ∈ pre, IsDir y.2 ∧ ∃ name, x.1 = y.1 ++ [name])) := by
  have hne : args ≠ [] := by rintro rfl; simp [parseArgs] at hp
  obtain ⟨coll, bundles, j⟩ := C19_short_paths S g o.bucket o.mx ht hg (bucket_blocks hsa hp) hb1 htotal
  have hl : Launchable c o.bucket o.archive := ⟨by omega, hrI, hb2, han⟩
  have hst := mainStart_job (c := c) (file0 := none) hne hp ha j.scanned j.planned
  unfold MainRun at h ⊢
  rw [hst] at h ⊢
  obtain ⟨_, h2, h3⟩ := C19_runs_succeed j hl hr2 hc h
  refine ⟨⟨_, fun tr' s' h' => (C19_runs_succeed j hl hr2 hc h').1⟩, h3, ?_⟩
  intro hs
  have hf := h2 hs
  exact ⟨hf, C19_every_successful_run j hl h hf.1⟩

end

/-! ### concrete cases -/

/-- `parfu archivefile=a /t`, `parfu bogus=1`, `parfu /t`, `parfu bucketsize=1000 archivefile=a /t`,
`parfu maxorders=x`. -/
example : parseArgs [] (defaultOpts 7) [archivefile ++ [61, 97], [47, 116]] = .ok (some ([[47, 116]], ⟨4992000, 7, [97]⟩)) ∧
    parseArgs [] (defaultOpts 7) [[98, 61, 49]] = .ok none ∧
    parseArgs [] (defaultOpts 7) [[47, 116]] = .ok (some ([[47, 116]], ⟨4992000, 7, []⟩)) ∧
    parseArgs [] (defaultOpts 7) [bucketsize ++ [61, 49, 48, 48, 48], archivefile ++ [61, 97], [47, 116]] =
      .ok (some ([[47, 116]], ⟨1024, 7, [97]⟩)) ∧
    parseArgs [] (defaultOpts 7) [maxorders ++ [61, 120]] = .error .thrown := by
  refine ⟨?_, ?_, ?_, ?_, ?_⟩ <;> decide +kernel

/-- `parfu archivefile=a /t` on the concrete tree with two workers runs to its end and leaves the
archive. -/
example : ∃ tr s, MainRun demoSort2 (fun _ => 0) (fun _ => demoTree) 7 [archivefile ++ [61, 97], [47, 116]]
    demoCfg true none tr s ∧ Finished demoCfg 0 s := by
  have h := (C19_whole_program (S := demoSort2) (g := fun _ => 0) (look := fun _ => demoTree) (mx0 := 7)
    (args := [archivefile ++ [61, 97], [47, 116]]) (c := demoCfg) (t := [47, 116]) (o := ⟨4992000, 7, [97]⟩)
    (by unfold ShortArgs; decide) (by decide +kernel) (by decide) (by decide) (by decide) (by decide)
    demo_shortTree (fun _ => rfl) demo_total (by decide) (by decide) rfl Run.nil).2.1
  obtain ⟨more, s, h1, h2⟩ := h
  exact ⟨_, s, h1, h2⟩

end Parfu.Props
