/-
Property theorems C82: several runs that create the same archive at the same time.
-/
import Verif.ManyLemmas
import Verif.PropsListing
import Verif.PropsBoth
set_option autoImplicit false

namespace Parfu.Props
open Parfu MoveSpec TarSpec ScanSpec PlanSpec ProtocolSpec LegacyRunSpec LegacyScanSpec

/-- Nothing can happen any more in any of the runs, even if no send ever waits for its receiver. -/
def AllStuck {ι : Type} [DecidableEq ι] (c : ι → Cfg) (x : Many ι) : Prop :=
  ∀ i e x', ¬ ManyStep c (fun _ => true) x i e x'

section
variable {ι : Type} [DecidableEq ι] {c : ι → Cfg} {eager : ι → Bool} {b : ι → Nat} {archive : Bytes} {base : ι → Bytes}
  {orders : ι → List Bytes} {file0 : Option Bytes} {tr : List (ι × Ev)} {x : Many ι}

theorem run_eager {c : Cfg} {eager : Bool} {s0 s : Sys} {tr : List Ev} (h : Run c eager s0 tr s) : Run c true s0 tr s := by
  induction h with
  | nil => exact .nil
  | snoc _ st ih => exact .snoc ih st.eager

theorem won_creatable {c : Cfg} {eager : Bool} {b : Nat} {archive base : Bytes} {orders : List Bytes} {tr : List Ev} {s : Sys}
    (h : CreateRun c eager b archive base orders none tr s) (hf : s.file ≠ none) : openResult c none ≠ none := by
  by_cases hc : c.creatable = true
  · simp [openResult, hc]
  · exfalso
    apply hf
    clear hf
    generalize hs0 : Sys.start (bossRun c.ranks b archive base orders) none = s0 at h
    induction h with
    | nil => rfl
    | snoc h' st ih =>
      cases st with
      | openFile name k hp hb hw => simp [ih, openResult, hc]
      | work r text name memory old write hr hs hf hm ho hd => rw [ih] at ho; cases ho
      | _ => exact ih

theorem waiting_quiet {c : Cfg} {eager : Bool} {b : Nat} {archive base : Bytes} {orders : List Bytes} {tr : List Ev} {s : Sys}
    (hL : Launch c b archive base orders)
    (h : Waiting c eager b archive base orders tr s ∨ Refused c eager b archive base orders tr s) :
    executed tr = [] ∧ s.boss ≠ .exit 0 := by
  have : CreateRun c eager b archive base orders (some []) tr { s with file := some [] } := by
    rcases h with h | h
    · exact h.1 _
    · exact h.1
  have h2 := C28_existing_archive_untouched hL [] this
  exact ⟨h2.2.1, h2.2.2⟩

theorem others_quiet (hL : ∀ i, Launch (c i) (b i) archive (base i) (orders i)) {w : Option ι}
    (hw : ManyInv c eager b archive base orders file0 tr x w) (j : ι) (hj : w ≠ some j) :
    executed (eventsOf j tr) = [] ∧ (x.run j).boss ≠ .exit 0 :=
  waiting_quiet (hL j) ((hw.others j hj).imp id And.left)

/-- **C82** Any number of runs of parfu 0.6 that create the same archive at the same time, in every
interleaving: at every moment either the file is as it was before and no run has written anything or
reported success, or there was no file before and exactly one run goes on as if it were alone, while
none of the others has written anything or reported success. -/
theorem C82_one_creates (hL : ∀ i, Launch (c i) (b i) archive (base i) (orders i))
    (h : ManyRun c eager (Many.start c b archive base orders file0) tr x) :
    (x.file = file0 ∧ ∀ j, executed (eventsOf j tr) = [] ∧ (x.run j).boss ≠ .exit 0) ∨
    (file0 = none ∧ ∃ i,
      CreateRun (c i) (eager i) (b i) archive (base i) (orders i) none (eventsOf i tr) { x.run i with file := x.file } ∧
      ∀ j, j ≠ i → executed (eventsOf j tr) = [] ∧ (x.run j).boss ≠ .exit 0) := by
  obtain ⟨w, hw⟩ := many_inv hL h
  cases w with
  | none => exact Or.inl ⟨hw.nobody rfl, fun j => others_quiet hL hw j (by simp)⟩
  | some i =>
    obtain ⟨h1, _, h3⟩ := hw.winner i rfl
    refine Or.inr ⟨h1, i, h3, fun j hj => others_quiet hL hw j ?_⟩
    intro he
    exact hj (Option.some.inj he).symm

/-- **C82** A run that ends with success has made the whole archive of its own tree, and the file is that
archive: whatever the other runs do, a tar reader finds exactly the members of that tree. -/
theorem C82_success_means_own_archive (hL : ∀ i, Launch (c i) (b i) archive (base i) (orders i))
    (h : ManyRun c eager (Many.start c b archive base orders file0) tr x) (i : ι) {root : FNode} {S : StdSort Ref}
    {g : Bytes → UInt8} {mx : Nat} {col : Coll} {bundles : List (List Order)}
    (j : Job (c i).env (c i).fs (base i) root S g (b i) mx col bundles) (hl : Launchable (c i) (b i) archive)
    (ho : orders i = bundles.map printBundle) (hb : (x.run i).boss = .exit 0) :
    ∃ A ms, x.file = some A ∧ readArchive A = some ms ∧ ms.Nodup ∧
      ∀ m, m ∈ ms ↔ ∃ p n, Seen root p n ∧ memberOf (c i).env (base i) p n = some m := by
  rcases C82_one_creates hL h with ⟨_, h2⟩ | ⟨_, k, h2, h3⟩
  · exact absurd hb (h2 i).2
  · have hk : i = k := Classical.byContradiction fun hk => (h3 i hk).2 hb
    subst hk
    rw [ho] at h2
    exact members_iff j hl h2 hb

/-- **C82** At most one of the runs reports success. -/
theorem C82_at_most_one (hL : ∀ i, Launch (c i) (b i) archive (base i) (orders i))
    (h : ManyRun c eager (Many.start c b archive base orders file0) tr x) (i j : ι)
    (hi : (x.run i).boss = .exit 0) (hj : (x.run j).boss = .exit 0) : i = j := by
  rcases C82_one_creates hL h with ⟨_, h2⟩ | ⟨_, k, _, h3⟩
  · exact absurd hi (h2 i).2
  · have h1 : i = k := Classical.byContradiction fun hk => (h3 i hk).2 hi
    have h2 : j = k := Classical.byContradiction fun hk => (h3 j hk).2 hj
    rw [h1, h2]

/-- **C82** The runs do not hinder each other: each makes at most as many steps as it can make alone,
and when nothing can happen any more all processes of all runs have ended, one run with status 0 — if
the archive was not there and can be created — and all others with status 1. -/
theorem C82_all_end (hL : ∀ i, Launch (c i) (b i) archive (base i) (orders i))
    (hW : ∀ i, Workable (c i) (b i) (base i) (orders i)) (hr : ∀ i, 2 ≤ (c i).ranks)
    (h : ManyRun c eager (Many.start c b archive base orders file0) tr x) :
    (∀ i, (eventsOf i tr).length ≤ (2 * (c i).ranks + 6) * (8 + 6 * (c i).ranks + 3 * (orders i).length)) ∧
    (AllStuck c x → (∀ i, Finished (c i) 0 (x.run i) ∨ Finished (c i) 1 (x.run i)) ∧
      (file0 = none → (∃ i, (c i).creatable = true) → ∃ i, Finished (c i) 0 (x.run i) ∧ ∀ j, j ≠ i → Finished (c j) 1 (x.run j))) := by
  obtain ⟨w, hw⟩ := many_inv hL h
  have hsolo : ∀ i, ∃ f s, CreateRun (c i) (eager i) (b i) archive (base i) (orders i) f (eventsOf i tr) s := by
    intro i
    by_cases hi : w = some i
    · exact ⟨_, _, (hw.winner i hi).2.2⟩
    · rcases hw.others i hi with h | ⟨h, _⟩
      · exact ⟨_, _, h.1 none⟩
      · exact ⟨_, _, h.1⟩
  refine ⟨fun i => ?_, fun hs => ?_⟩
  · obtain ⟨f, s, hi⟩ := hsolo i
    exact C25_bounded (hL i) hi
  have hst : ∀ i e s', ¬ Step (c i) true { x.run i with file := x.file } e s' := fun i e s' st => hs i e _ (.one x i e s' st)
  have h1 : ∀ i, w ≠ some i → Finished (c i) 1 (x.run i) := by
    intro i hi
    have hq := others_quiet hL hw i hi
    rcases hw.others i hi with h | ⟨h, _⟩
    · rcases C25_no_deadlock (hL i) (hW i) (hr i) (h.1 x.file) with h0 | h1 | ⟨e, s', st⟩
      · exact absurd h0.1 hq.2
      · exact h1
      · exact absurd st.eager (hst i e s')
    · rcases C25_no_deadlock (hL i) (hW i) (hr i) h.1 with h0 | h1 | ⟨e, s', st⟩
      · exact absurd h0.1 hq.2
      · exact h1
      · refine absurd (step_blind st.eager (noOpen_step st h.2).2 ?_ x.file).2 (hst i e _)
        rintro r t b' a m v rfl
        have hrun := C28_existing_archive_untouched (eager := true) (hL i) [] (.snoc (run_eager h.1) st.eager)
        have := hrun.2.1
        simp [executed] at this
  have h0 : ∀ i, w = some i → Finished (c i) 0 (x.run i) := by
    intro i hi
    obtain ⟨_, hf, hrun⟩ := hw.winner i hi
    rcases C25_no_deadlock (hL i) (hW i) (hr i) hrun with h0 | h1 | ⟨e, s', st⟩
    · exact h0
    · exfalso
      have := (C25_outcome (hL i) hrun).2 h1.1
      exact absurd this (won_creatable hrun hf)
    · exact absurd st.eager (hst i e s')
  refine ⟨fun i => ?_, fun hf hc => ?_⟩
  · by_cases hi : w = some i
    · exact Or.inl (h0 i hi)
    · exact Or.inr (h1 i hi)
  · cases hwi : w with
    | some i => exact ⟨i, h0 i hwi, fun j hj => h1 j (by rw [hwi]; intro he; exact hj (Option.some.inj he).symm)⟩
    | none =>
      exfalso
      obtain ⟨i, hci⟩ := hc
      have hx : x.file = none := by rw [hw.nobody hwi, hf]
      rcases hw.others i (by rw [hwi]; simp) with h | ⟨_, h⟩
      · have := (C25_outcome (hL i) (h.1 none)).2 (h1 i (by rw [hwi]; simp)).1
        simp [openResult, hci] at this
      · rw [h hx] at hci
        cases hci

/-- What one run does by itself from some moment on, it can do among the others. -/
theorem many_extend {tr : List (ι × Ev)} {x0 x : Many ι} (h : ManyRun c eager x0 tr x) (i : ι) {more : List Ev} {s : Sys}
    (hm : Run (c i) (eager i) { x.run i with file := x.file } more s) :
    ∃ y : Many ι, ManyRun c eager x0 (tr ++ more.map (Prod.mk i)) y ∧ { y.run i with file := y.file } = s ∧
      ∀ j, j ≠ i → y.run j = x.run j := by
  induction hm with
  | nil => exact ⟨x, by simpa using h, rfl, fun _ _ => rfl⟩
  | @snoc more s s' e _ st ih =>
    obtain ⟨y, h1, h2, h3⟩ := ih
    refine ⟨⟨Function.update y.run i s', s'.file⟩, ?_, ?_, ?_⟩
    · rw [List.map_append, ← List.append_assoc]
      exact .snoc h1 (.one y i e s' (by rw [h2]; exact st))
    · simp
    · intro j hj
      simp only [Function.update_of_ne hj]
      exact h3 j hj

end

/-- Two runs: the directory with `a` listed first and the one with `b` listed first. -/
def duoCfg (i : Bool) : Cfg := if i then swapCfg [97] [98] else swapCfg [98] [97]
def duoOrders (i : Bool) : List Bytes := (if i then swapBundles [97] [98] else swapBundles [98] [97]).map printBundle

theorem duo_launch (i : Bool) : Launch (duoCfg i) 102400 [97] [100] (duoOrders i) := by
  cases i
  · exact job_launch (swap_job (Or.inr ⟨rfl, rfl⟩)) (swap_launchable [98] [97])
  · exact job_launch (swap_job (Or.inl ⟨rfl, rfl⟩)) (swap_launchable [97] [98])

theorem duo_workable (i : Bool) : Workable (duoCfg i) 102400 [100] (duoOrders i) := by
  cases i
  · exact job_workable (swap_job (Or.inr ⟨rfl, rfl⟩))
  · exact job_workable (swap_job (Or.inl ⟨rfl, rfl⟩))

/-- The hypotheses are met, and nontrivially: two runs go to the end; the first that opens the archive makes it
and ends with 0, and the other ends with 1. -/
example : ∃ (tr : List (Bool × Ev)) (x : Many Bool),
    ManyRun duoCfg (fun _ => true) (Many.start duoCfg (fun _ => 102400) [97] (fun _ => [100]) duoOrders none) tr x ∧
    Finished (duoCfg true) 0 (x.run true) ∧ Finished (duoCfg false) 1 (x.run false) ∧
    (∃ A ms, x.file = some A ∧ readArchive A = some ms ∧ ms.Nodup ∧
      ∀ m, m ∈ ms ↔ ∃ p n, Seen (swapTree [97] [98]) p n ∧ memberOf demoEnv2 [100] p n = some m) ∧
    (∀ i j : Bool, (x.run i).boss = .exit 0 → (x.run j).boss = .exit 0 → i = j) ∧
    executed (eventsOf false tr) = [] ∧ (eventsOf true tr).length ≤ 12 * (8 + 18 + 3 * 1) := by
  obtain ⟨t1, s1, h1, f1⟩ := C25_reaches_end (eager := true) (file0 := none) (duo_launch true) (duo_workable true) (by decide) Run.nil
  have f1 : Finished (duoCfg true) 0 s1 := by
    rcases f1 with f1 | f1
    · exact f1
    · have := (C25_outcome (duo_launch true) h1).2 f1.1
      simp [openResult, duoCfg, swapCfg] at this
  obtain ⟨x1, m1, e1, o1⟩ := many_extend (c := duoCfg) (eager := fun _ => true)
    (x0 := Many.start duoCfg (fun _ => 102400) [97] (fun _ => [100]) duoOrders none) ManyRun.nil true h1
  have hex := ((C25_outcome (duo_launch true) h1).1 f1.1)
  have b1 : (x1.run true).boss = .exit 0 := by
    have := congrArg Sys.boss e1
    exact this.trans f1.1
  have w1 : ∀ r, (duoCfg true).worker r → ((x1.run true).w r).stat = .ended 0 := by
    intro r hr
    have := congrArg (fun z => (z.w r).stat) e1
    exact this.trans (f1.2 r hr)
  obtain ⟨A0, _, hA0, _⟩ := C82_success_means_own_archive duo_launch m1 true (swap_job (Or.inl ⟨rfl, rfl⟩)) (swap_launchable _ _) rfl b1
  have hs2 : ({ x1.run false with file := x1.file } : Sys) =
      Sys.start (bossRun (duoCfg false).ranks 102400 [97] [100] (duoOrders false)) (some A0) := by
    rw [o1 false (by decide), hA0]
    rfl
  obtain ⟨t2, s2, h2, f2⟩ := C25_reaches_end (eager := true) (file0 := some A0) (duo_launch false) (duo_workable false) (by decide) Run.nil
  rw [List.nil_append] at h2
  have f2 : Finished (duoCfg false) 1 s2 := by
    rcases f2 with f2 | f2
    · exact absurd f2.1 (C28_existing_archive_untouched (duo_launch false) A0 h2).2.2
    · exact f2
  obtain ⟨x2, m2, e2, o2⟩ := many_extend m1 false (by rw [hs2]; exact h2)
  have hb : (x2.run true).boss = .exit 0 := by rw [o2 true (by decide)]; exact b1
  have hq := C82_one_creates duo_launch m2
  refine ⟨_, x2, m2, ⟨hb, fun r hr => by rw [o2 true (by decide)]; exact w1 r hr⟩, ?_, ?_, ?_, ?_, ?_⟩
  · refine ⟨(congrArg Sys.boss e2).trans f2.1, fun r hr => ?_⟩
    have := congrArg (fun z => (z.w r).stat) e2
    exact this.trans (f2.2 r hr)
  · exact C82_success_means_own_archive duo_launch m2 true (swap_job (Or.inl ⟨rfl, rfl⟩)) (swap_launchable _ _) rfl hb
  · exact fun i j hi hj => C82_at_most_one duo_launch m2 i j hi hj
  · rcases hq with ⟨_, h⟩ | ⟨_, k, _, h⟩
    · exact absurd hb (h true).2
    · have : k = true := by
        cases k with
        | true => rfl
        | false => exact absurd hb (h true (by decide)).2
      subst this
      exact (h false (by decide)).1
  · have := (C82_all_end duo_launch duo_workable (by decide) m2).1 true
    simpa [duoOrders, swapBundles, duoCfg, swapCfg] using this

/-- **C82, violated by 0.5.1** Two runs of parfu 0.5.1 that create the same archive do not notice each other:
both succeed, and if the writes of the second come after those of the first, in whatever order each makes its
own, the file is read as the archive of the second tree only. (What is said of one run in C46 holds for any
old contents of the file, and so for the writes of another run.) -/
theorem C82_legacy_last_wins (L L' : LegEnv) (Q Q' : QSort Frag) (nul top top' : Bytes) (root root' : FNode)
    (hp' : Platform L' nul) (ha' : LegArchivable L'.env L'.fs top' root') (seen seen' : Option FNode) (hseen' : DirOrLink seen')
    (n n' : Nat) (hn' : 0 < n') (front front' : List WriteReq) (wss wss' : List (List WriteReq))
    (_h : legacyMain L Q nul top seen root n = .ok (some (front, wss)))
    (h' : legacyMain L' Q' nul top' seen' root' n' = .ok (some (front', wss')))
    (hgap : ∀ cat, (512, cat) ∈ front' → (cat.length + 1024) % 4194304 ≠ 0)
    (ws ws' : List WriteReq) (_hws : ws.Perm (front ++ wss.flatten)) (hws' : ws'.Perm (front' ++ wss'.flatten)) (old : Bytes) :
    ∃ cat all, readArchive ((ws ++ ws').foldl writeAt old) = some (cat :: all) ∧
      cat.path = catalogName ∧ MembersOf L'.env top' root' (all.filter fun m => !ownMember m) := by
  rw [List.foldl_append]
  obtain ⟨cat, all, h1, _, h3, _, _, h6, _⟩ := C46_archive_partial L' Q' nul top' root' hp' ha' seen' hseen' n' hn' front' wss' h' hgap
    ws' hws' (ws.foldl writeAt old)
  exact ⟨cat, all, h1, h3, h6⟩

/-- **C82, violated by 0.5.1** Two directories, of which only the first has a visible file
`a`: both runs report
success, and the archive has no member `d/a`. -/
theorem C82_legacy_member_lost (Q Q' : QSort Frag) : ∃ front wss front' wss',
    legacyMain (bothEnv [97]) Q glibcNull [100] (some (bothTree [97])) (bothTree [97]) 2 = .ok (some (front, wss)) ∧
    legacyMain (bothEnv [46, 97]) Q' glibcNull [100] (some (bothTree [46, 97])) (bothTree [46, 97]) 2 = .ok (some (front', wss')) ∧
    (∀ ws : List WriteReq, ws.Perm (front ++ wss.flatten) → ∃ all, readArchive (ws.foldl writeAt []) = some all ∧ ∃ m ∈ all, m.path = [100, 47, 97]) ∧
    ∀ ws ws' : List WriteReq, ws.Perm (front ++ wss.flatten) → ws'.Perm (front' ++ wss'.flatten) →
      ∃ all, readArchive ((ws ++ ws').foldl writeAt []) = some all ∧ ∀ m ∈ all, m.path ≠ [100, 47, 97] := by
  obtain ⟨front, wss, h1, g1⟩ := (both_runs (Or.inl rfl) Q).2
  obtain ⟨front', wss', h2, g2⟩ := (both_runs (Or.inr rfl) Q').2
  refine ⟨front, wss, front', wss', h1, h2, ?_, ?_⟩
  · intro ws hws
    obtain ⟨cat, all, r, _, _, _, _, hm, _⟩ := C46_archive_partial (bothEnv [97]) Q glibcNull [100] (bothTree [97]) (both_platform _) (both_leg (Or.inl rfl))
      (some (bothTree [97])) trivial 2 (by omega) front wss h1 g1 ws hws []
    refine ⟨_, r, ?_⟩
    have := (hm.1 _).2 ⟨[[97]], .reg ⟨420, 0, 0, 0⟩ [1, 2], ⟨.step (.here (by decide) (by decide)) (.self _), by simp [NoHidden]⟩, rfl⟩
    exact ⟨_, List.mem_cons_of_mem _ (List.mem_filter.1 this).1, rfl⟩
  · intro ws ws' hws hws'
    obtain ⟨cat, all, r, hcat, hm⟩ := C82_legacy_last_wins (bothEnv [97]) (bothEnv [46, 97]) Q Q' glibcNull [100] [100] (bothTree [97]) (bothTree [46, 97])
      (both_platform _) (both_leg (Or.inr rfl)) (some (bothTree [97])) (some (bothTree [46, 97])) trivial 2 2 (by omega) front front' wss wss' h1 h2 g2 ws ws' hws hws' []
    refine ⟨_, r, ?_⟩
    intro m hmem hp
    rcases List.mem_cons.1 hmem with rfl | hmem
    · rw [hcat] at hp
      exact absurd hp (by decide)
    by_cases ho : ownMember m = true
    · unfold ownMember at ho
      rw [decide_eq_true_iff] at ho
      rcases ho.2 with h | h <;> rw [h] at hp <;> exact absurd hp (by decide)
    · obtain ⟨p, n, hv, hmo⟩ := (hm.1 m).1 (List.mem_filter.2 ⟨hmem, by simp [ho]⟩)
      have hmo' : some m = memberOf demoEnv2 (baseOf [100]) p n := hmo.symm
      rcases both_cases hv.1 with ⟨rfl, rfl⟩ | ⟨rfl, rfl⟩ | ⟨rfl, rfl⟩ <;>
        (have := congrArg (Option.map Member.path) hmo'
         rw [Option.map_some, hp] at this
         revert this
         decide)

end Parfu.Props
