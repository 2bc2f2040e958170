/-
Property theorems C71: what the exit status of parfu 0.6 says when memory, reads or writes fail.
-/
import Verif.FaultsLemmas
import Verif.PropsHole
set_option autoImplicit false

namespace Parfu.Props
open Parfu ProtocolSpec FaultsSpec MoveSpec TarSpec ScanSpec PlanSpec

/-- A run of the create program in which memory, reads and writes of the workers may fail. -/
abbrev FaultyRun (c : Cfg) (eager : Bool) (b : Nat) (archive base : Bytes) (orders : List Bytes)
    (file0 : Option Bytes) (tr : List FEv) (s : Sys) : Prop :=
  FRun c eager (Sys.start (bossRun c.ranks b archive base orders) file0) tr s

theorem run_cons {c : Cfg} {eager : Bool} {s0 s1 s : Sys} {e : Ev} {tr : List Ev} (st : Step c eager s0 e s1)
    (h : Run c eager s1 tr s) : Run c eager s0 (e :: tr) s := by
  induction h with
  | nil => exact Run.snoc (tr := []) .nil st
  | @snoc tr s s' e' _ st' ih => exact Run.snoc ih st'

section
variable {c : Cfg} {eager : Bool} {b : Nat} {archive base : Bytes} {orders : List Bytes}
  {file0 : Option Bytes} {tr : List Ev} {trF : List FEv} {s : Sys}

/-- From every state of a run its end can be reached. -/
theorem reaches_end_from (hL : Launch c b archive base orders) (hW : Workable c b base orders)
    (hr2 : 2 ≤ c.ranks) (h : CreateRun c eager b archive base orders file0 tr s) :
    ∃ more s', Run c eager s more s' ∧ CreateRun c eager b archive base orders file0 (tr ++ more) s' ∧
      (Finished c 0 s' ∨ Finished c 1 s') := by
  generalize hm : (2 * c.ranks + 6) * (8 + 6 * c.ranks + 3 * orders.length) - tr.length = m
  induction m using Nat.strongRecOn generalizing tr s with
  | ind m ih =>
    rcases C25_no_deadlock hL hW hr2 h with h0 | h1 | ⟨e, s', hst⟩
    · exact ⟨[], s, .nil, by simpa using h, Or.inl h0⟩
    · exact ⟨[], s, .nil, by simpa using h, Or.inr h1⟩
    · have hst' : Step c eager s e s' := by
        cases eager with
        | false => exact hst
        | true => exact hst.eager
      have hrun : CreateRun c eager b archive base orders file0 (tr ++ [e]) s' := .snoc h hst'
      have hb := C25_bounded hL hrun
      simp only [List.length_append, List.length_singleton] at hb
      obtain ⟨more, s2, h1, h2, h3⟩ := ih _ (by
        rw [← hm]
        show (2 * c.ranks + 6) * (8 + 6 * c.ranks + 3 * orders.length) - (tr ++ [e]).length < _
        simp only [List.length_append, List.length_singleton]
        omega) hrun rfl
      exact ⟨e :: more, s2, run_cons hst' h1, by simpa using h2, h3⟩

theorem same_did (h : List.Forall₂ SameEv trF tr) {r : Nat} {t m : Bytes} {F : Faults} {o : Option WriteReq}
    (hm : FEv.did r t m F o ∈ trF) : ∃ ba ar w, Ev.wrote r t ba ar m w ∈ tr := by
  induction h with
  | nil => cases hm
  | @cons e e' _ _ he _ ih =>
    rcases List.mem_cons.1 hm with rfl | hm
    · cases e' with
      | wrote r' t' ba ar m' w =>
        obtain ⟨rfl, rfl, rfl, _⟩ := he
        exact ⟨ba, ar, w, by simp⟩
      | _ => cases he
    · obtain ⟨ba, ar, w, h⟩ := ih hm
      exact ⟨ba, ar, w, List.mem_cons_of_mem _ h⟩

theorem same_wrote (h : List.Forall₂ SameEv trF tr) {r : Nat} {t m ba ar : Bytes} {w : WriteReq}
    (hm : Ev.wrote r t ba ar m w ∈ tr) :
    FEv.ev (.wrote r t ba ar m w) ∈ trF ∨ ∃ F o, FEv.did r t m F o ∈ trF := by
  induction h with
  | nil => cases hm
  | @cons e e' _ _ he _ ih =>
    rcases List.mem_cons.1 hm with rfl | hm
    · cases e with
      | ev x =>
        have he : x = _ := he
        subst he
        exact Or.inl (by simp)
      | did r' t' m' F o =>
        obtain ⟨rfl, rfl, rfl, _⟩ := he
        exact Or.inr ⟨F, o, by simp⟩
    · rcases ih hm with h | ⟨F, o, h⟩
      · exact Or.inl (List.mem_cons_of_mem _ h)
      · exact Or.inr ⟨F, o, List.mem_cons_of_mem _ h⟩

/-! ### C71 -/

/-- **C71, violated** No process notices a failure: whatever memory, reads and writes fail, every run has,
event for event, a run in which nothing fails and in which rank 0, all workers and all messages are in the
same state - only what is in the archive differs. -/
theorem C71_unnoticed (hL : Launch c b archive base orders) (hW : Workable c b base orders)
    (h : FaultyRun c eager b archive base orders file0 trF s) :
    ∃ tr f, CreateRun c eager b archive base orders file0 tr (s.withFile f) ∧
      f.isSome = s.file.isSome ∧ List.Forall₂ SameEv trF tr :=
  frun_plain hL hW h

/-- A failed worker does nothing any more. -/
theorem dead_stays {s s' : Sys} {e : Ev} {r : Nat} (hr : c.worker r) {x : Err} (h : (s.w r).stat = .dead x)
    (st : Step c eager s e s') : (s'.w r).stat = .dead x := by
  cases st with
  | openFile name k hp hb hw => rw [hw r hr] at h; cases h
  | getBcast q m rest hq hs hm hl =>
    have : r ≠ q := by rintro rfl; rw [h] at hs; cases hs
    simp only [Function.update_of_ne this]; exact h
  | getSend q m rest hq hs hm hl =>
    have : r ≠ q := by rintro rfl; rw [h] at hs; cases hs
    simp only [Function.update_of_ne this]; exact h
  | work q text name memory old write hq hs hf hm ho hd =>
    have : r ≠ q := by rintro rfl; rw [h] at hs; cases hs
    simp only [Function.update_of_ne this]; exact h
  | workFails q text memory e hq hs hm hd =>
    have : r ≠ q := by rintro rfl; rw [h] at hs; cases hs
    simp only [Function.update_of_ne this]; exact h
  | ackDone q hq hs hl =>
    have : r ≠ q := by rintro rfl; rw [h] at hs; cases hs
    simp only [Function.update_of_ne this]; exact h
  | _ => exact h

/-- **C71** What is noticed, in any run from any state (also of jobs beyond the limits): a worker that
cannot carry out an order at all, failures or not, has failed for good. -/
theorem C71_failed_worker_stops {s0 : Sys} (h : FRun c eager s0 trF s) {r : Nat}
    (hr : c.worker r) (he : FEv.ev (.failed r) ∈ trF) : ∃ x, (s.w r).stat = .dead x := by
  induction h with
  | nil => cases he
  | @snoc tr s s' e h st ih =>
    rcases List.mem_append.1 he with he | he
    · obtain ⟨x, hx⟩ := ih he
      refine ⟨x, ?_⟩
      cases st with
      | same st => exact dead_stays hr hx st
      | work q text name memory old F write hq hs hf hm ho hd =>
        have : r ≠ q := by rintro rfl; rw [hx] at hs; cases hs
        simp only [Function.update_of_ne this]; exact hx
      | workFails q text memory F e hq hs hm hd =>
        have : r ≠ q := by rintro rfl; rw [hx] at hs; cases hs
        simp only [Function.update_of_ne this]; exact hx
    · rw [List.mem_singleton] at he
      subst he
      cases st with
      | same st =>
        cases st with
        | sendBad q m k hp hb hq => exact absurd hr.1 (by decide)
        | workFails q text memory e hq hs hm hd => exact ⟨e, by simp⟩
      | workFails q text memory F e hq hs hm hd => exact ⟨e, by simp⟩

/-- A worker with an order text that is none, whose reads fail as well. -/
example : ∃ s, FRun ⟨2, ⟨fun _ => none, fun _ => none⟩, fun _ => none, true⟩ true
    { Sys.start (.exit 0) (some []) with w := fun _ => { WSt.init with stat := .working [120, 10] } }
    [.ev (.failed 1)] s :=
  ⟨_, .snoc (tr := []) .nil (.workFails _ 1 [120, 10] [] ⟨true, fun _ => 0, 0⟩ _ ⟨by decide, by decide⟩ rfl rfl rfl)⟩

/-- **C71, violated** ... and the other way round: whatever can happen when nothing fails can happen, event
for event, with any failures whatever, and all processes and messages are in the same state. -/
theorem C71_any_failures (P : Nat → Bytes → Faults) (h : CreateRun c eager b archive base orders file0 tr s) :
    ∃ trF f, FaultyRun c eager b archive base orders file0 trF (s.withFile f) ∧
      f.isSome = s.file.isSome ∧ List.Forall₂ SameEv trF tr ∧ Follows P trF :=
  frun_faulty P h rfl

/-- **C71, violated** Whatever an interrupted run can leave in the archive, a run whose writes fail from
some moment on can leave there with all processes ended and status 0. -/
theorem C71_interruption_reported_as_success (hL : Launch c b archive base orders)
    (hW : Workable c b base orders) (hr2 : 2 ≤ c.ranks)
    (h : CreateRun c eager b archive base orders none tr s) {f : Bytes} (hf : s.file = some f) :
    ∃ trF s', FaultyRun c eager b archive base orders none (tr.map FEv.ev ++ trF) s' ∧ Finished c 0 s' ∧
      s'.file = some f ∧ Follows (fun _ _ => writesFail) trF := by
  obtain ⟨more, s', h1, h2, h3⟩ := reaches_end_from hL hW hr2 h
  obtain ⟨trF, f', k1, k2, k3, k4⟩ := frun_faulty (fun _ _ => writesFail) h1 (f0 := s.file) rfl
  rw [withFile_self] at k1
  have hall := FRun.append (Run.toF h) k1
  -- nothing is written after the interruption
  have hkeep : ∀ (trF : List FEv) (s1 : Sys), FRun c eager s trF s1 → Follows (fun _ _ => writesFail) trF →
      s1.file = some f := by
    intro trF s1 hr
    induction hr with
    | nil => intro _; exact hf
    | @snoc trF s1 s2 e _ st ih =>
      intro hfo
      have hi := ih ⟨fun r t m F w hm => hfo.1 r t m F w (List.mem_append_left _ hm),
        fun r t b a m w hm => hfo.2 r t b a m w (List.mem_append_left _ hm)⟩
      cases st with
      | @same _ ev st =>
        cases st with
        | work r text name memory old write hr hs hfl hm ho hd =>
          exact absurd (List.mem_append_right _ (List.mem_singleton.2 rfl)) (hfo.2 _ _ _ _ _ _)
        | openFile name k hp hb hw =>
          show (if (openResult c s1.file).isSome then openResult c s1.file else s1.file) = some f
          rw [hi]
          rfl
        | _ => exact hi
      | work r text name memory old F write hr hs hfl hm ho hd =>
        have hF := hfo.1 r text memory F write (by simp)
        subst hF
        have hn : write = none := by
          unfold workerDoF at hd
          cases hp : parseOrders text with
          | error e => rw [hp] at hd; cases hd
          | ok ws =>
            rw [hp] at hd
            simp only [bind, Except.bind] at hd
            cases ht : totalSize ws with
            | error e => rw [ht] at hd; cases hd
            | ok n =>
              cases hn : orderNFilename ws 0 with
              | error e => rw [ht, hn] at hd; cases hd
              | ok x =>
                rw [ht, hn] at hd
                simp only at hd
                unfold moveDataF at hd
                rw [if_pos (show writesFail.memory = true from rfl)] at hd
                split at hd
                · split at hd
                  · cases hd
                  · simp only at hd
                    split at hd
                    · cases hd
                    · split at hd
                      · rw [if_pos (show writesFail.write = 0 from rfl)] at hd
                        cases hd; rfl
                      · cases hd
                · cases hd
        subst hn
        show some (writeSome old none) = some f
        rw [hi] at ho
        cases ho
        rfl
      | workFails r text memory F e hr hs hm hd => exact hi
  refine ⟨trF, _, hall, ?_, hkeep trF _ k1 k4, k4⟩
  rcases h3 with h3 | h3
  · exact ⟨h3.1, h3.2⟩
  · exfalso
    have ho := (C25_outcome hL h2).2 h3.1
    -- the archive had been made
    have hcr : ∀ (tr : List Ev) (s : Sys), CreateRun c eager b archive base orders none tr s → s.file.isSome →
        c.creatable = true := by
      intro tr s hr
      induction hr with
      | nil => intro hs; cases hs
      | @snoc tr s1 s2 e _ st ih =>
        intro hs
        cases st with
        | openFile name k hp hb hw =>
          cases hfi : s1.file with
          | some x => exact ih (by rw [hfi]; rfl)
          | none =>
            by_cases hcc : c.creatable = true
            · exact hcc
            · simp only [hfi, openResult, hcc] at hs
              simp at hs
        | work r text name memory old write hr hs' hfl hm ho' hd => exact ih (by rw [ho']; rfl)
        | _ => exact ih hs
    have := hcr tr s h (by rw [hf]; rfl)
    simp [openResult, this] at ho

end

section
variable {cfg : Cfg} {eager : Bool} {base : Bytes} {root : FNode} {S : StdSort Ref} {g : Bytes → UInt8}
  {b mx : Nat} {c : Coll} {bundles : List (List Order)} {archive : Bytes} {file0 : Option Bytes}
  {tr : List Ev} {trF : List FEv} {s : Sys}

/-- **C71, violated** Every job - every tree, however large - has a run in which not one byte reaches the
archive and all processes end with status 0; a tar reader finds a valid archive without members in what is
left, although there is at least one object to archive. -/
theorem C71_nothing_written_status_0 (j : Job cfg.env cfg.fs base root S g b mx c bundles)
    (hl : Launchable cfg b archive) (hr : 2 ≤ cfg.ranks) (hc : cfg.creatable = true) :
    ∃ trF s, FaultyRun cfg true b archive base (bundles.map printBundle) none trF s ∧ Finished cfg 0 s ∧
      s.file = some [] ∧ readArchive [] = some [] ∧ Seen root [] root ∧ describe [] root ≠ none := by
  have hL := job_launch j hl
  have hW := job_workable j
  obtain ⟨_, _, tr, s, h, hfin⟩ := C19_runs_succeed j hl hr hc (tr := []) (s := Sys.start _ none) Run.nil
  obtain ⟨trF, f, k1, k2, k3, k4⟩ := C71_any_failures (fun _ _ => ⟨false, fun _ => 0, 0⟩) h
  have hempty : writesF trF = [] := by
    have : ∀ e ∈ trF, (match e with
        | FEv.ev (.wrote _ _ _ _ _ w) => some w
        | .did _ _ _ _ o => o
        | _ => none : Option WriteReq) = none := by
      have hgen : ∀ (trF : List FEv) (s : Sys),
          FRun cfg true (Sys.start (bossRun cfg.ranks b archive base (bundles.map printBundle)) none) trF s →
          Follows (fun _ _ => ⟨false, fun _ => 0, 0⟩) trF →
          ∀ e ∈ trF, (match e with
          | FEv.ev (.wrote _ _ _ _ _ w) => some w
          | .did _ _ _ _ o => o
          | _ => none : Option WriteReq) = none := by
        intro trF s hr
        induction hr with
        | nil => intro _ e he; cases he
        | @snoc trF s1 s2 e _ st ih =>
          intro hfo
          have hi := ih ⟨fun r t m F w hm => hfo.1 r t m F w (List.mem_append_left _ hm),
            fun r t b a m w hm => hfo.2 r t b a m w (List.mem_append_left _ hm)⟩
          intro e' he'
          rcases List.mem_append.1 he' with he' | he'
          · exact hi e' he'
          · rw [List.mem_singleton] at he'
            subst he'
            cases st with
            | @same _ ev st =>
              cases st with
              | work r text name memory old write hr hs hfl hm ho hd =>
                exact absurd (List.mem_append_right _ (List.mem_singleton.2 rfl)) (hfo.2 _ _ _ _ _ _)
              | _ => rfl
            | work r text name memory old F write hr hs hfl hm ho hd =>
              have hF := hfo.1 r text memory F write (by simp)
              subst hF
              show write = none
              unfold workerDoF at hd
              cases hp : parseOrders text with
              | error e => rw [hp] at hd; cases hd
              | ok ws =>
                rw [hp] at hd
                simp only [bind, Except.bind] at hd
                cases ht : totalSize ws with
                | error e => rw [ht] at hd; cases hd
                | ok n =>
                  cases hn : orderNFilename ws 0 with
                  | error e => rw [ht, hn] at hd; cases hd
                  | ok x =>
                    rw [ht, hn] at hd
                    simp only at hd
                    unfold moveDataF at hd
                    rw [if_neg (by simp)] at hd
                    cases hd; rfl
            | workFails r text memory F e hr hs hm hd => rfl
      exact hgen trF _ k1 k4
    exact List.filterMap_eq_nil_iff.2 this
  refine ⟨trF, _, k1, ⟨hfin.1, hfin.2⟩, ?_, by rw [readArchive, if_pos (Or.inl rfl)], .self _, ?_⟩
  · rcases frun_file k1 with ⟨h0, _⟩ | h0
    · have hsome := C28_new_archive_is_the_writes hL h hfin.1
      exfalso
      have h0' : f = none := h0
      rw [h0', hsome] at k2
      cases k2
    · rw [h0, hempty]; rfl
  · have hd := j.tree.isDir
    cases root with
    | dir m o k => simp [describe]
    | _ => cases hd

/-- **C71, violated** Any one bundle can be lost - here one that holds only data of a file too large for a
bundle, and is not the last - and all processes end with status 0; the archive reads as complete, every
member has its right size, and the lost data is zeros. -/
theorem C71_lost_bundle_status_0 (j : Job cfg.env cfg.fs base root S g b mx c bundles)
    (hl : Launchable cfg b archive) (hr3 : 3 ≤ cfg.ranks) (hc : cfg.creatable = true)
    {l : List Order} (hlb : l ∈ bundles) (hdata : ∀ o ∈ l, o.hdr = 0) (hnl : bundles.getLast? ≠ some l) :
    ∃ trF s f, FaultyRun cfg true b archive base (bundles.map printBundle) none trF s ∧ Finished cfg 0 s ∧
      s.file = some f ∧
      ∃ (ms : List Member) (objs : List (List Bytes × FNode)) (got : List Bytes → Bytes),
        readArchive f = some ms ∧
        (objs.map Prod.fst).Nodup ∧ (∀ p n, (p, n) ∈ objs ↔ Seen root p n ∧ describe p n ≠ none) ∧
        ms.map some = objs.map (fun x => (memberOf cfg.env base x.1 x.2).map ({ · with data := got x.1 })) ∧
        (∀ x ∈ objs, (got x.1).length = (contentOf x.2).length) ∧
        ∀ o ∈ l, ∃ x ∈ objs, pathText x.1 = o.rel ∧ 0 < o.size ∧
          o.off + o.size ≤ (contentOf x.2).length ∧
          ∀ i, o.off ≤ i → i < o.off + o.size → (got x.1)[i]? = some 0 := by
  obtain ⟨tr, s, f, h1, h2, h3⟩ := C65_any_one_missing j hl hr3 hc hlb
  obtain ⟨trF, s', k1, k2, k3, _⟩ := C71_interruption_reported_as_success (job_launch j hl) (job_workable j)
    (by omega) h1 h2
  refine ⟨_, s', f, k1, k2, k3, ?_⟩
  obtain ⟨ms, objs, got, g1, g2, g3, g4, g5, g6⟩ := C65_hole_in_file j hl h1 h2 (by
      intro l' hl'
      by_cases hd : DoneBundle tr l'
      · exact Or.inl hd
      · right
        have : l' = l := Classical.byContradiction fun hne => hd ((h3 l' hl').2 hne)
        rw [this]; exact hdata) (by
      intro l' hll
      refine (h3 l' (List.mem_of_getLast? hll)).2 ?_
      rintro rfl
      exact hnl hll)
  exact ⟨ms, objs, got, g1, g2, g3, g4, fun x hx => (g5 x hx).1,
    g6 l hlb (fun hd => (h3 l hlb).1 hd rfl)⟩

/-- **C71** Failures damage only the bundles they hit: at every moment of every run, whatever a worker got
into the archive is there, where it belongs, and what nobody wrote is zero or has not been reached. -/
theorem C71_damage_is_local (j : Job cfg.env cfg.fs base root S g b mx c bundles)
    (hl : Launchable cfg b archive)
    (h : FaultyRun cfg eager b archive base (bundles.map printBundle) none trF s) {f : Bytes}
    (hf : s.file = some f) :
    (∀ v ∈ writesF trF, ∀ i, v.1 ≤ i → i < v.1 + v.2.length → f[i]? = v.2[i - v.1]?) ∧
    (∀ i, (∀ v ∈ writesF trF, ¬ (v.1 ≤ i ∧ i < v.1 + v.2.length)) → f[i]? = some 0 ∨ f[i]? = none) := by
  have hfile : f = writeAll (writesF trF) := by
    rcases frun_file h with ⟨h0, _⟩ | h0
    · rw [h0] at hf; cases hf
    · rw [h0] at hf; exact (Option.some.inj hf).symm
  obtain ⟨tr, f', k1, k2, k3⟩ := C71_unnoticed (job_launch j hl) (job_workable j) h
  obtain ⟨_, _, hrun⟩ := j.setup
  obtain ⟨xs, ys, zs, hx, hz, hc⟩ := run_tasks j hl k1
  have hwr : writes tr = xs.map Task.write := by
    rw [← ran_writes, ← hx, List.map_map]; rfl
  obtain ⟨hends, hap⟩ := carried_apart hrun zs hc
  have hap' : ((xs ++ ys).map Task.write).Pairwise
      (fun a b : WriteReq => Apart a.1 a.2.length b.1 b.2.length) :=
    ((hz.map Task.write).symm.pairwise_iff (by intro a b hab; exact hab.symm)).2 hap
  rw [List.map_append] at hap'
  have hapw := (List.pairwise_append.1 hap').1
  rw [← hwr] at hapw
  obtain ⟨ws, hsub, hsh⟩ := shrunk_writes k3
  have hapF := shrunk_apart hsh (hapw.sublist hsub)
  constructor
  · intro v hv i h1 h2
    rw [hfile]
    exact (writes_stay (writesF trF) [] (by simpa using hapF) v hv i h1 h2).2
  · intro i hi
    rw [hfile]
    exact foldl_writeAt_hole i _ [] (Or.inr rfl) hi

/-- **C71, for runs in which nothing fails** If memory is there and no read or write falls short, every run
that ends with status 0 leaves an archive in which a tar reader finds exactly the members specified for
the objects of the tree, each once, a directory before what it contains. -/
theorem C71_when_nothing_fails_partial (j : Job cfg.env cfg.fs base root S g b mx c bundles)
    (hl : Launchable cfg b archive)
    (h : FaultyRun cfg eager b archive base (bundles.map printBundle) file0 trF s)
    (hn : ∀ r t m F w, FEv.did r t m F w ∈ trF → NothingFails F m) (hb : s.boss = .exit 0) :
    ∃ (A : Bytes) (ms : List Member) (objs : List (List Bytes × FNode)),
      s.file = some A ∧ readArchive A = some ms ∧
      ms.map some = objs.map (fun x => memberOf cfg.env base x.1 x.2) ∧
      (objs.map Prod.fst).Nodup ∧
      (∀ p n, (p, n) ∈ objs ↔ Seen root p n ∧ describe p n ≠ none) ∧
      (∀ pre x post, objs = pre ++ x :: post → pre ≠ [] →
        ∃ y ∈ pre, IsDir y.2 ∧ ∃ name, x.1 = y.1 ++ [name]) := by
  obtain ⟨tr, h1, _⟩ := frun_all (job_launch j hl) (job_workable j) h hn
  exact C19_every_successful_run j hl h1 hb

end

/-! ### the hypotheses can be met -/

/-- The demonstration job: nothing written, status 0. -/
example : ∃ trF s, FaultyRun demoCfg true 102400 [97] demoBase (demoBundles.map printBundle) none trF s ∧
    Finished demoCfg 0 s ∧ s.file = some [] := by
  obtain ⟨trF, s, h1, h2, h3, _⟩ := C71_nothing_written_status_0 (cfg := demoCfg) demo_job' demo_launchable
    (by decide) rfl
  exact ⟨trF, s, h1, h2, h3⟩

/-- A file of 220000 bytes 7: 102400 of them lost in the middle, status 0, the archive reads as complete. -/
example : ∃ trF s f ms, FaultyRun ⟨3, demoEnv2, oneFileFs hugeData, true⟩ true 102400 [97] demoBase
      (hugeBundles.map printBundle) none trF s ∧
    Finished ⟨3, demoEnv2, oneFileFs hugeData, true⟩ 0 s ∧ s.file = some f ∧ readArchive f = some ms := by
  let cfg : Cfg := ⟨3, demoEnv2, oneFileFs hugeData, true⟩
  have j : Job cfg.env cfg.fs demoBase (oneFile hugeData) demoSort2 (fun _ => 0) 102400 3 hugeC hugeBundles := huge_job
  have hl : Launchable cfg 102400 [97] := by constructor <;> decide
  have hmid : [(⟨0, [98], .reg, [], 102400, 0, 102912, 101888⟩ : Order)] ∈ hugeBundles := by decide
  obtain ⟨trF, s, f, h1, h2, h3, ms, _, _, h4, _⟩ := C71_lost_bundle_status_0 j hl (by decide) rfl hmid (by decide)
    (by decide)
  exact ⟨trF, s, f, ms, h1, h2, h3, h4⟩

/-- Nothing fails in a fault-free run, carried out as one with failures. -/
example : ∃ trF s, FaultyRun demoCfg true 102400 [97] demoBase (demoBundles.map printBundle) none trF s ∧
    s.boss = .exit 0 ∧ (∀ r t m F w, FEv.did r t m F w ∈ trF → NothingFails F m) ∧
    ∃ r t m F w, FEv.did r t m F w ∈ trF := by
  have hL := job_launch demo_job' demo_launchable
  obtain ⟨_, _, tr, s, h, hfin⟩ := C19_runs_succeed demo_job' demo_launchable (by decide) rfl
    (tr := []) (s := Sys.start _ none) Run.nil
  obtain ⟨trF, f, k1, k2, k3, k4⟩ := C71_any_failures (fun _ _ => ⟨true, fun _ => 2 ^ 31, 102400⟩) h
  refine ⟨trF, _, k1, hfin.1, ?_, ?_⟩
  · intro r t m F w hm
    have hF := k4.1 r t m F w hm
    subst hF
    refine ⟨rfl, fun _ => Nat.le_refl _, by show (102400 : Nat) ≠ 0; decide, ?_⟩
    show m.length ≤ 102400
    obtain ⟨ba, ar, w', hw⟩ := same_did k3 hm
    obtain ⟨g, hp⟩ := boss_exit0 hL rfl (run_inv' hL h) hfin.1
    have := (hp.wrote r t ba ar m w' hw).2.2.1
    exact Nat.le_of_eq this
  · have h1 := C22_exactly_once hL h hfin.1
    have h2 : (executed ([] ++ tr)).length = 2 := by
      have := congrArg List.length h1.1
      rw [List.length_map, ← h1.2.length_eq] at this
      rw [this]; rfl
    obtain ⟨x, hx⟩ := List.exists_mem_of_length_pos (l := executed ([] ++ tr)) (by omega)
    obtain ⟨e, he, hex⟩ := List.mem_filterMap.1 hx
    cases e with
    | wrote r t ba ar m w =>
      rcases same_wrote k3 he with h | ⟨F, o, h⟩
      · exact absurd h (k4.2 _ _ _ _ _ _)
      · exact ⟨r, t, m, F, o, h⟩
    | _ => cases hex

end Parfu.Props
