/-
Property theorems C73: how many files parfu 0.6 can archive with a limit on open files.
-/
import Verif.OpenFiles
import Verif.PropsReads
set_option autoImplicit false

namespace Parfu.FdSpec
open Parfu

/-- The pieces of files that are to be copied: the orders with data. -/
def pieces (bundles : List (List Order)) : Nat := bundles.flatten.countP fun o => o.size != 0

/-- How many files worker `r` has tried to open. -/
def tried (r : Nat) (tr : List FEv) : Nat :=
  (tr.map fun e => match e with
    | .did r' t _ _ _ => if r' = r then opens (ordersOf t) else 0
    | _ => 0).sum

/-- How many files the workers can open together. -/
def together (c : Cfg) (left : Nat → Nat) : Nat := ((List.range c.ranks).map fun r => if r = 0 then 0 else left r).sum

end Parfu.FdSpec

namespace Parfu.Props
open Parfu ProtocolSpec FaultsSpec MoveSpec TarSpec ScanSpec PlanSpec FdSpec

/-- A run of the create program whose processes can open `left0` files each. -/
abbrev OpenRun (c : Cfg) (eager : Bool) (b : Nat) (archive base : Bytes) (orders : List Bytes)
    (file0 : Option Bytes) (left0 : Nat → Nat) (tr : List FEv) (s : Sys) (left : Nat → Nat) : Prop :=
  DRun c eager (Sys.start (bossRun c.ranks b archive base orders) file0) left0 tr s left

section
variable {c : Cfg} {eager : Bool} {b : Nat} {archive base : Bytes} {orders : List Bytes}
  {file0 : Option Bytes} {tr : List Ev} {trF : List FEv} {s s0 : Sys} {left0 left : Nat → Nat}

theorem drun_frun (h : DRun c eager s0 left0 trF s left) : FRun c eager s0 trF s := by
  induction h with
  | nil => exact .nil
  | snoc _ st ih =>
    cases st with
    | other he st => exact .snoc ih (.same st)
    | work st => exact .snoc ih st

theorem drun_no_wrote (h : DRun c eager s0 left0 trF s left) :
    ∀ r t b a m w, FEv.ev (.wrote r t b a m w) ∉ trF := by
  induction h with
  | nil => intro r t b a m w hm; cases hm
  | snoc _ st ih =>
    intro r t b a m w hm
    rcases List.mem_append.1 hm with hm | hm
    · exact ih _ _ _ _ _ _ hm
    · rw [List.mem_singleton] at hm
      subst hm
      cases st with
      | other he st => exact he _ _ _ _ _ _ rfl

theorem tried_append (r : Nat) (t1 t2 : List FEv) : tried r (t1 ++ t2) = tried r t1 + tried r t2 := by
  simp [tried]

theorem tried_did (r r' : Nat) (t m : Bytes) (F : Faults) (w : Option WriteReq) :
    tried r [.did r' t m F w] = if r' = r then opens (ordersOf t) else 0 := by
  simp [tried]

/-- What is left of the descriptors of a worker. -/
theorem drun_left (h : DRun c eager s0 left0 trF s left) : ∀ r, left r = left0 r - tried r trF := by
  induction h with
  | nil => intro r; simp [tried]
  | snoc _ st ih =>
    intro r
    rw [tried_append]
    cases st with
    | other he st =>
      rw [ih r]
      have : ∀ e, tried r [FEv.ev e] = 0 := by intro e; simp [tried]
      rw [this]; omega
    | @work _ _ r' t m w st =>
      rw [tried_did]
      by_cases hr : r' = r
      · subst hr
        rw [Function.update_self, if_pos rfl, ih]; omega
      · rw [Function.update_of_ne (Ne.symm hr), if_neg hr, ih]; omega

/-- What a worker could open while it carried out a bundle is what it had tried to open before, taken from
what it had. -/
theorem drun_faults (h : DRun c eager s0 left0 trF s left) : ∀ pre r t m F w post,
    trF = pre ++ .did r t m F w :: post → F = openFaults (left0 r - tried r pre) (ordersOf t) := by
  induction h with
  | nil => intro pre r t m F w post he; cases pre <;> cases he
  | @snoc trF s s' left left' e h' st ih =>
    intro pre r t m F w post he
    rcases List.eq_nil_or_concat post with rfl | ⟨post', x, rfl⟩
    · obtain ⟨h1, h2⟩ := List.append_inj' he rfl
      subst h1
      simp only [List.cons.injEq, and_true] at h2
      subst h2
      cases st with
      | work st => rw [← drun_left h']
    · rw [List.concat_eq_append, ← List.cons_append, ← List.append_assoc] at he
      exact ih pre r t m F w post' (List.append_inj' he rfl).1

theorem opens_take (ws : List WOrder) (i : Nat) : opens (ws.take i) ≤ opens ws :=
  (List.take_sublist i ws).countP_le

/-- A worker that can open all files of a bundle reads everything. -/
theorem openFaults_enough {left : Nat} {ws : List WOrder} {m : Bytes} (h : opens ws ≤ left) (hm : m.length < 2 ^ 31) :
    NothingFails (openFaults left ws) m := by
  refine ⟨rfl, fun i => ?_, by show (2 : Nat) ^ 31 ≠ 0; decide, Nat.le_of_lt hm⟩
  show 2 ^ 31 ≤ if opens (ws.take (i + 1)) ≤ left then 2 ^ 31 else 0
  rw [if_pos (Nat.le_trans (opens_take ws _) h)]

/-- One that cannot leaves out a file. -/
theorem openFaults_missing {left : Nat} {ws : List WOrder} (h : left < opens ws) :
    ∃ (k : Nat) (w : WOrder), ws[k]? = some w ∧ w.size ≠ 0 ∧ (openFaults left ws).reads k = 0 := by
  rcases List.eq_nil_or_concat ws with rfl | ⟨pre, x, rfl⟩
  · simp [opens] at h
  · have key : ∀ (ws : List WOrder), left < opens ws → ∃ (k : Nat) (w : WOrder), ws[k]? = some w ∧ w.size ≠ 0 ∧
        left < opens (ws.take (k + 1)) := by
      intro ws
      induction ws using List.reverseRec with
      | nil => intro h; simp [opens] at h
      | append_singleton ws x ih =>
        intro h
        by_cases hx : x.size = 0
        · have h' : left < opens ws := by
            unfold opens at h ⊢
            rw [List.countP_append] at h
            simpa [hx] using h
          obtain ⟨k, w, h1, h2, h3⟩ := ih h'
          have hk := (List.getElem?_eq_some_iff.1 h1).1
          refine ⟨k, w, ?_, h2, ?_⟩
          · rw [List.getElem?_append_left hk]; exact h1
          · rw [List.take_append_of_le_length (by omega)]; exact h3
        · refine ⟨ws.length, x, by simp, hx, ?_⟩
          rw [List.take_of_length_le (by simp)]
          exact h
    obtain ⟨k, w, h1, h2, h3⟩ := key _ h
    refine ⟨k, w, h1, h2, ?_⟩
    show (if opens (_ : List WOrder) ≤ left then 2 ^ 31 else 0) = 0
    rw [if_neg (by omega)]

/-- If a worker has tried to open more files than it can, there was a bundle of which it could not open
all. -/
theorem drun_missing (h : DRun c eager s0 left0 trF s left) {r : Nat} (hr : left0 r < tried r trF) :
    ∃ t m F w k o, FEv.did r t m F w ∈ trF ∧ (ordersOf t)[k]? = some o ∧ o.size ≠ 0 ∧ F.reads k = 0 := by
  induction h with
  | nil => simp [tried] at hr
  | @snoc trF s s' left left' e h' st ih =>
    by_cases hp : left0 r < tried r trF
    · obtain ⟨t, m, F, w, k, o, h1, h2⟩ := ih hp
      exact ⟨t, m, F, w, k, o, List.mem_append_left _ h1, h2⟩
    · rw [tried_append] at hr
      cases st with
      | other he st => simp [tried] at hr hp; omega
      | @work _ _ r' t m w st =>
        rw [tried_did] at hr
        by_cases hrr : r' = r
        · subst hrr
          rw [if_pos rfl] at hr
          have hl := drun_left h' r'
          obtain ⟨k, o, k1, k2, k3⟩ := openFaults_missing (left := left r') (ws := ordersOf t) (by omega)
          exact ⟨t, m, _, w, k, o, by simp, k1, k2, k3⟩
        · rw [if_neg hrr] at hr; omega

/-- If no worker has tried to open more files than it can, nothing has failed. -/
theorem drun_all (h : DRun c eager s0 left0 trF s left) (hr : ∀ r, tried r trF ≤ left0 r)
    (hm : ∀ r t m F w, FEv.did r t m F w ∈ trF → m.length < 2 ^ 31) :
    ∀ r t m F w, FEv.did r t m F w ∈ trF → NothingFails F m := by
  intro r t m F w hmem
  obtain ⟨pre, post, he⟩ := List.append_of_mem hmem
  have hF := drun_faults h pre r t m F w post he
  have hle := hr r
  rw [he, tried_append] at hle
  have : tried r (FEv.did r t m F w :: post) = opens (ordersOf t) + tried r post := by
    rw [show FEv.did r t m F w :: post = [FEv.did r t m F w] ++ post from rfl, tried_append, tried_did, if_pos rfl]
  rw [hF]
  exact openFaults_enough (by omega) (hm _ _ _ _ _ hmem)

/-- The failures for lack of descriptors are failures of reads only. -/
theorem drun_only_reads (h : DRun c eager s0 left0 trF s left)
    (hm : ∀ r t m F w, FEv.did r t m F w ∈ trF → m.length < 2 ^ 31) :
    ∀ r t m F w, FEv.did r t m F w ∈ trF → OnlyReadsFail F m := by
  intro r t m F w hmem
  obtain ⟨pre, post, he⟩ := List.append_of_mem hmem
  rw [drun_faults h pre r t m F w post he]
  exact ⟨rfl, by show (2 : Nat) ^ 31 ≠ 0; decide, Nat.le_of_lt (hm _ _ _ _ _ hmem)⟩

theorem sum_ite_range (n r x : Nat) : ((List.range n).map fun q => if r = q then x else 0).sum = if r < n then x else 0 := by
  induction n with
  | zero => simp
  | succ n ih =>
    rw [List.range_succ, List.map_append, List.sum_append, ih]
    simp only [List.map_cons, List.map_nil, List.sum_cons, List.sum_nil, Nat.add_zero]
    by_cases h1 : r < n
    · rw [if_pos h1, if_neg (by omega), if_pos (by omega)]; omega
    · rw [if_neg h1]
      by_cases h2 : r = n
      · rw [if_pos h2, if_pos (by omega)]; omega
      · rw [if_neg h2, if_neg (by omega)]

theorem sum_add_map (l : List Nat) (f k : Nat → Nat) : (l.map fun q => f q + k q).sum = (l.map f).sum + (l.map k).sum := by
  induction l with
  | nil => rfl
  | cons a l ih => simp only [List.map_cons, List.sum_cons, ih]; omega

/-- The files all workers have tried to open. -/
theorem tried_together (hd : ∀ r t m F w, FEv.did r t m F w ∈ trF → c.worker r) :
    ((List.range c.ranks).map fun r => if r = 0 then 0 else tried r trF).sum =
      ((ranF trF).map fun x => opens (ordersOf x.1)).sum := by
  induction trF with
  | nil => simp [tried, ranF]
  | cons e trF ih =>
    have ih' := ih (fun r t m F w hm => hd r t m F w (List.mem_cons_of_mem _ hm))
    have hc : ∀ r, tried r (e :: trF) = tried r [e] + tried r trF := by
      intro r; rw [← tried_append]; rfl
    have hs : ((List.range c.ranks).map fun r => if r = 0 then 0 else tried r (e :: trF)).sum =
        ((List.range c.ranks).map fun r => if r = 0 then 0 else tried r [e]).sum +
        ((List.range c.ranks).map fun r => if r = 0 then 0 else tried r trF).sum := by
      rw [← sum_add_map]
      congr 1
      apply List.map_congr_left
      intro r _
      by_cases h0 : r = 0
      · simp [h0]
      · simp only [if_neg h0, hc]
    rw [hs, ih']
    cases e with
    | ev e =>
      have : ((List.range c.ranks).map fun r => if r = 0 then 0 else tried r [FEv.ev e]).sum = 0 := by
        have : ∀ r, (if r = 0 then 0 else tried r [FEv.ev e]) = 0 := by intro r; simp [tried]
        simp [this]
      rw [this, Nat.zero_add]
      rfl
    | did r t m F w =>
      obtain ⟨w1, w2⟩ := hd r t m F w (by simp)
      have : ((List.range c.ranks).map fun q => if q = 0 then 0 else tried q [FEv.did r t m F w]).sum =
          opens (ordersOf t) := by
        rw [← (if_pos w2 : (if r < c.ranks then opens (ordersOf t) else 0) = _), ← sum_ite_range]
        congr 1
        apply List.map_congr_left
        intro q _
        rw [tried_did]
        by_cases h0 : q = 0
        · rw [if_pos h0, if_neg (by omega)]
        · rw [if_neg h0]
      rw [this]
      simp [ranF]

/-- Every run without a limit has one with, in which the workers' memory holds whatever is wanted. -/
theorem drun_of_run (hL : Launch c b archive base orders) (hW : Workable c b base orders) (left0 : Nat → Nat)
    (mem : Bytes) (hm : mem.length = b) (h : CreateRun c eager b archive base orders file0 tr s) :
    ∃ trD f left, OpenRun c eager b archive base orders file0 left0 trD (s.withFile f) left ∧
      f.isSome = s.file.isSome ∧ ∀ r t m F w, FEv.did r t m F w ∈ trD → m = mem := by
  induction h with
  | nil => exact ⟨[], file0, left0, .nil, rfl, fun r t m F w hm => by cases hm⟩
  | @snoc tr s s' e h' st ih =>
    obtain ⟨trD, f, left, h1, h2, h3⟩ := ih
    by_cases hw : ∃ r t b a m w, e = .wrote r t b a m w
    · obtain ⟨r, t, b', a, m, w, rfl⟩ := hw
      cases st with
      | work _ _ _ _ old _ hr hs hf hml ho hd =>
        have hI := run_inv (K := ⟨c, b, archive, base, orders, file0⟩) hL h'
        obtain ⟨w1, w2, w3, w4, w5⟩ := working_has hI hr hs
        obtain ⟨w', hw'⟩ := hW t w1 mem hm
        obtain ⟨o, k1, k2⟩ := workerDoF_ok (openFaults (left r) (ordersOf t)) hw'
        rw [ho] at h2
        cases f with
        | none => cases h2
        | some g =>
          refine ⟨trD ++ [.did r t mem (openFaults (left r) (ordersOf t)) o], some (writeSome g o), _, .snoc h1 (.work ?_), rfl, ?_⟩
          · exact FStep.work (s.withFile (some g)) r t a mem g _ o hr hs hf (by rw [hm]; exact w3.symm) rfl
              (by show workerDoF _ c.env c.fs (s.w r).base mem t = _; rw [show (s.w r).base = base from w2]; exact k1)
          · intro r' t' m' F' w'' hmem
            rcases List.mem_append.1 hmem with hmem | hmem
            · exact h3 _ _ _ _ _ hmem
            · simp only [List.mem_singleton, FEv.did.injEq] at hmem
              exact hmem.2.2.1
    · obtain ⟨f', k1, k2⟩ := step_withFile st f h2
      refine ⟨trD ++ [.ev e], f', left, .snoc h1 (.other (fun r t b a m w he => hw ⟨r, t, b, a, m, w, he⟩) k2), k1, ?_⟩
      intro r' t' m' F' w'' hmem
      rcases List.mem_append.1 hmem with hmem | hmem
      · exact h3 _ _ _ _ _ hmem
      · simp at hmem

end


section
variable {cfg : Cfg} {eager : Bool} {base : Bytes} {root : FNode} {S : StdSort Ref} {g : Bytes → UInt8}
  {b mx : Nat} {c : Coll} {bundles : List (List Order)} {archive : Bytes} {file0 : Option Bytes}
  {trF : List FEv} {s : Sys} {left0 left : Nat → Nat}

theorem job_ordersOf (j : Job cfg.env cfg.fs base root S g b mx c bundles) {l : List Order} (hl : l ∈ bundles) :
    ordersOf (printBundle l) = l.map asReceived := by
  obtain ⟨_, _, hr⟩ := j.setup
  have hsub : ∀ o ∈ l, o ∈ bundles.flatten := fun o ho => List.mem_flatten.2 ⟨l, hl, ho⟩
  have hm := j.msgs l hl
  have hpar := (C17_roundtrip_partial l (fun o ho => hr.noTab o (hsub o ho)) (fun o ho => hr.noNul o (hsub o ho))
    (fun o ho => j.small o (hsub o ho)) (by omega)).2
  have hrec := job_received j l hl
  unfold received at hrec
  rw [hrec] at hpar
  unfold ordersOf
  rw [hpar]

theorem opens_received (l : List Order) : opens (l.map asReceived) = l.countP fun o => o.size != 0 := by
  unfold opens
  rw [List.countP_map]
  rfl

theorem job_opens (j : Job cfg.env cfg.fs base root S g b mx c bundles) :
    ((bundles.map printBundle).map fun t => opens (ordersOf t)).sum = pieces bundles := by
  have : ∀ bs : List (List Order), (∀ l ∈ bs, l ∈ bundles) →
      ((bs.map printBundle).map fun t => opens (ordersOf t)).sum = pieces bs := by
    intro bs
    induction bs with
    | nil => intro _; rfl
    | cons l bs ih =>
      intro h
      have := ih (fun x hx => h x (List.mem_cons_of_mem _ hx))
      simp only [List.map_cons, List.sum_cons, this, job_ordersOf j (h l (by simp)), opens_received]
      simp [pieces, List.flatten_cons, List.countP_append]
  exact this bundles (fun _ h => h)

/-- The files tried by the end of a run that ends with status 0 are all pieces of files. -/
theorem drun_pieces (j : Job cfg.env cfg.fs base root S g b mx c bundles) (hl : Launchable cfg b archive)
    (h : OpenRun cfg eager b archive base (bundles.map printBundle) file0 left0 trF s left) (hb : s.boss = .exit 0) :
    ((List.range cfg.ranks).map fun r => if r = 0 then 0 else tried r trF).sum = pieces bundles := by
  have hL := job_launch j hl
  have hW := job_workable j
  have hF := drun_frun h
  obtain ⟨tr, f, h1, h2, h3⟩ := frun_plain hL hW hF
  obtain ⟨e1, e2⟩ := C22_exactly_once hL h1 hb
  have htext : ((ranF trF).map Prod.fst).Perm (bundles.map printBundle) := by
    rw [ranF_text h3 (drun_no_wrote h), ran_text, ← e1]
    exact e2.map _
  rw [tried_together (fun r t m F w hm => (frun_did hL hW hF r t m F w hm).1), ← job_opens j,
    ← (htext.map (fun t => opens (ordersOf t))).sum_nat, List.map_map]
  rfl

theorem sum_le_of (l : List Nat) (f k : Nat → Nat) (h : ∀ r ∈ l, f r ≤ k r) : (l.map f).sum ≤ (l.map k).sum := by
  induction l with
  | nil => simp
  | cons a l ih =>
    have h1 := h a (by simp)
    have h2 := ih (fun r hr => h r (by simp [hr]))
    simp only [List.map_cons, List.sum_cons]
    omega

/-- **C73 (partial)** If no worker tries to open more files than it can, a run that ends with status 0 leaves
an archive with exactly the members specified for the objects of the tree.  Missing: workers that get more
pieces of files than they can open (`C73_too_many_files`). -/
theorem C73_enough_partial (j : Job cfg.env cfg.fs base root S g b mx c bundles) (hl : Launchable cfg b archive)
    (h : OpenRun cfg eager b archive base (bundles.map printBundle) file0 left0 trF s left)
    (hr : ∀ r, tried r trF ≤ left0 r) (hb : s.boss = .exit 0) :
    ∃ (A : Bytes) (ms : List Member) (objs : List (List Bytes × FNode)),
      s.file = some A ∧ readArchive A = some ms ∧
      ms.map some = objs.map (fun x => memberOf cfg.env base x.1 x.2) ∧
      (objs.map Prod.fst).Nodup ∧
      (∀ p n, (p, n) ∈ objs ↔ Seen root p n ∧ describe p n ≠ none) := by
  have hF := drun_frun h
  have hdid := frun_did (job_launch j hl) (job_workable j) hF
  obtain ⟨A, ms, objs, h1, h2, h3, h4, h5, _⟩ := C71_when_nothing_fails_partial j hl hF
    (drun_all h hr (fun r t m F w hm => by rw [(hdid r t m F w hm).2.2.1]; exact hl.bucketInt)) hb
  exact ⟨A, ms, objs, h1, h2, h3, h4, h5⟩

/-- **C73 (partial)** In particular if every worker alone can open all pieces of files there are, whatever
the schedule. -/
theorem C73_enough_each_partial (j : Job cfg.env cfg.fs base root S g b mx c bundles) (hl : Launchable cfg b archive)
    (h : OpenRun cfg eager b archive base (bundles.map printBundle) file0 left0 trF s left)
    (hr : ∀ r, cfg.worker r → pieces bundles ≤ left0 r) (hb : s.boss = .exit 0) :
    ∃ (A : Bytes) (ms : List Member) (objs : List (List Bytes × FNode)),
      s.file = some A ∧ readArchive A = some ms ∧
      ms.map some = objs.map (fun x => memberOf cfg.env base x.1 x.2) ∧
      (objs.map Prod.fst).Nodup ∧
      (∀ p n, (p, n) ∈ objs ↔ Seen root p n ∧ describe p n ≠ none) := by
  refine C73_enough_partial j hl h (fun r => ?_) hb
  have hdid := frun_did (job_launch j hl) (job_workable j) (drun_frun h)
  have hp := drun_pieces j hl h hb
  by_cases hw : cfg.worker r
  · refine Nat.le_trans ?_ (hr r hw)
    obtain ⟨w1, w2⟩ := id hw
    rw [← hp]
    have := sum_le_of (List.range cfg.ranks) (fun q => if r = q then tried r trF else 0)
      (fun q => if q = 0 then 0 else tried q trF) (by
        intro q _
        by_cases hq : r = q
        · subst hq
          rw [if_pos rfl, if_neg (by omega)]
        · simp [hq])
    rw [sum_ite_range, if_pos w2] at this
    exact this
  · have : tried r trF = 0 := by
      unfold tried
      rw [List.sum_eq_zero]
      intro x hx
      obtain ⟨e, he, rfl⟩ := List.mem_map.1 hx
      cases e with
      | ev e => rfl
      | did r' t m F w =>
        simp only
        rw [if_neg]
        rintro rfl
        exact hw (hdid _ _ _ _ _ he).1
    omega

/-- **C73, violated** If the workers together can open fewer files than there are pieces of files, every run
that ends with status 0 leaves an archive that reads as complete, with a member of the right name and size
for every object, in which some stretch of some file is not that file's data but what was in a worker's
memory. -/
theorem C73_too_many_files (j : Job cfg.env cfg.fs base root S g b mx c bundles) (hl : Launchable cfg b archive)
    (h : OpenRun cfg eager b archive base (bundles.map printBundle) none left0 trF s left)
    (hmany : together cfg left0 < pieces bundles) (hb : s.boss = .exit 0) :
    ∃ (A : Bytes) (ms : List Member) (objs : List (List Bytes × FNode)) (got : List Bytes → Bytes),
      s.file = some A ∧ readArchive A = some ms ∧
      (objs.map Prod.fst).Nodup ∧ (∀ p n, (p, n) ∈ objs ↔ Seen root p n ∧ describe p n ≠ none) ∧
      ms.map some = objs.map (fun x => (memberOf cfg.env base x.1 x.2).map ({ · with data := got x.1 })) ∧
      (∀ x ∈ objs, (got x.1).length = (contentOf x.2).length) ∧
      ∃ y ∈ objs, ∃ off size at', 0 < size ∧ off + size ≤ (contentOf y.2).length ∧
        ∃ r t m F w, FEv.did r t m F w ∈ trF ∧
          ∀ i, i < size → (got y.1)[off + i]? = m[at' + i]? := by
  have hL := job_launch j hl
  have hW := job_workable j
  have hF := drun_frun h
  have hdid := frun_did hL hW hF
  obtain ⟨A, ms, objs, got, a1, a2, a3, a4, a5, a6, _, a8⟩ := C71_unread_data_is_memory j hl hF (drun_no_wrote h)
    (drun_only_reads h (fun r t m F w hm => by rw [(hdid r t m F w hm).2.2.1]; exact hl.bucketInt)) hb
  refine ⟨A, ms, objs, got, a1, a2, a3, a4, a5, a6, ?_⟩
  have hex : ∃ r, left0 r < tried r trF := by
    refine Classical.byContradiction fun hno => ?_
    have hle : ∀ r, tried r trF ≤ left0 r := fun r => by
      refine Classical.byContradiction fun hc => hno ⟨r, by omega⟩
    have := sum_le_of (List.range cfg.ranks) (fun r => if r = 0 then 0 else tried r trF)
      (fun r => if r = 0 then 0 else left0 r) (by
        intro r _
        have := hle r
        show (if r = 0 then 0 else tried r trF) ≤ (if r = 0 then 0 else left0 r)
        by_cases h0 : r = 0
        · simp [h0]
        · rw [if_neg h0, if_neg h0]; exact this)
    rw [drun_pieces j hl h hb] at this
    unfold together at hmany
    omega
  obtain ⟨r, hr⟩ := hex
  obtain ⟨t, m, F, w, k, o', h1, h2, h3, h4⟩ := drun_missing h hr
  obtain ⟨l, hlb, rfl, hk⟩ := a8 r t m F w h1
  rw [job_ordersOf j hlb, List.getElem?_map] at h2
  obtain ⟨o, ho1, rfl⟩ := Option.map_eq_some_iff.1 h2
  have hos : o.size ≠ 0 := fun hc => h3 (by simp [asReceived, hc])
  obtain ⟨y, hy, hy1, hy2, hy3⟩ := hk k o ho1 hos
  refine ⟨y, hy, o.off, o.size, o.pos - startOf l + o.hdr, by omega, hy2, r, _, m, F, w, h1, ?_⟩
  intro i hi
  have := hy3 i hi
  rw [h4, if_neg (by omega)] at this
  exact this

/-- **C73, violated** And there are such runs: all processes end with status 0, and with `v` the byte the
workers' memory is filled with, the archive has a stretch of `v` in the place of file data.  If no file
contains that byte, the member is not the file. -/
theorem C73_reported_as_success (j : Job cfg.env cfg.fs base root S g b mx c bundles) (hl : Launchable cfg b archive)
    (hr2 : 2 ≤ cfg.ranks) (hc : cfg.creatable = true) (hmany : together cfg left0 < pieces bundles) (v : UInt8) :
    ∃ (trF : List FEv) (s : Sys) (left : Nat → Nat),
      OpenRun cfg true b archive base (bundles.map printBundle) none left0 trF s left ∧ Finished cfg 0 s ∧
      ∃ (A : Bytes) (ms : List Member) (objs : List (List Bytes × FNode)) (got : List Bytes → Bytes),
        s.file = some A ∧ readArchive A = some ms ∧
        (∀ p n, (p, n) ∈ objs ↔ Seen root p n ∧ describe p n ≠ none) ∧
        ms.map some = objs.map (fun x => (memberOf cfg.env base x.1 x.2).map ({ · with data := got x.1 })) ∧
        ∃ y ∈ objs, ∃ off size, 0 < size ∧ off + size ≤ (contentOf y.2).length ∧
          (∀ i, i < size → (got y.1)[off + i]? = some v) ∧
          (v ∉ contentOf y.2 → got y.1 ≠ contentOf y.2) := by
  obtain ⟨_, _, tr, s, h, hfin⟩ := C19_runs_succeed j hl hr2 hc (tr := []) (s := Sys.start _ none) Run.nil
  obtain ⟨trF, f, left, h1, _, h3⟩ := drun_of_run (job_launch j hl) (job_workable j) left0 (List.replicate b v)
    List.length_replicate h
  have hfin' : Finished cfg 0 (s.withFile f) := hfin
  obtain ⟨A, ms, objs, got, a1, a2, a3, a4, a5, a6, y, hy, off, size, at', k1, k2, r, t, m, F, w, k3, k4⟩ :=
    C73_too_many_files j hl h1 hmany hfin'.1
  have hv : ∀ i, i < size → (got y.1)[off + i]? = some v := by
    intro i hi
    have hlt : off + i < (got y.1).length := by rw [a6 y hy]; omega
    have hk := k4 i hi
    rw [h3 r t m F w k3, List.getElem?_replicate] at hk
    rw [hk]
    split
    · rfl
    · rename_i hn
      rw [if_neg hn, List.getElem?_eq_getElem hlt] at hk
      cases hk
  refine ⟨trF, _, left, h1, hfin', A, ms, objs, got, a1, a2, a4, a5, y, hy, off, size, k1, k2, hv, ?_⟩
  intro hnv he
  have := hv 0 k1
  rw [he] at this
  exact hnv (List.mem_of_getElem? this)

/-- **C73** The pieces of files are at least as many as the non-empty files of the tree. -/
theorem C73_pieces_at_least_files (j : Job cfg.env cfg.fs base root S g b mx c bundles) (ps : List (List Bytes))
    (hnd : ps.Nodup) (hp : ∀ p ∈ ps, ∃ n, Seen root p n ∧ contentOf n ≠ []) : ps.length ≤ pieces bundles := by
  obtain ⟨hok, _, _⟩ := j.setup
  obtain ⟨c', hs', hex, _⟩ := C07_scan_exact g base root j.tree.isDir j.tree.treeOk j.luck
  rw [j.scanned] at hs'
  have := Except.ok.inj hs'
  subst this
  have hin : (ps.map pathText).Subperm ((bundles.flatten.filter fun o => o.size != 0).map (·.rel)) := by
    refine List.subperm_of_subset ?_ ?_
    · refine List.Nodup.map_on ?_ hnd
      intro p h1 q h2 he
      obtain ⟨n1, k1, _⟩ := hp p h1
      obtain ⟨n2, k2, _⟩ := hp q h2
      exact pathText_inj (at_nameOk (seen_at k1) j.tree.treeOk) (at_nameOk (seen_at k2) j.tree.treeOk) he
    · intro x hx
      obtain ⟨p, hpm, rfl⟩ := List.mem_map.1 hx
      obtain ⟨n, k1, k2⟩ := hp p hpm
      cases n with
      | reg m d =>
        obtain ⟨r, hr, hre⟩ := List.mem_map.1 ((hex _).2 ⟨p, _, k1, rfl⟩)
        have hr' : r ∈ (orderFiles S c).dirs ++ (orderFiles S c).files := by
          rcases List.mem_append.1 hr with h | h
          · exact List.mem_append_left _ h
          · exact List.mem_append_right _ ((S.perm _ _ sortBySize_strictWeak).mem_iff.2 h)
        have hcnt := ((C11_every_byte_once 0 b mx _ bundles hok j.planned).1 r hr').2 0
        have hd : d ≠ [] := k2
        rw [hre, if_pos (by show 0 < d.length; exact List.length_pos_iff.2 hd)] at hcnt
        have hpos : 0 < bundles.flatten.countP (fun o => Moves o (pathText p) 0) := by
          have : bundles.flatten.countP (fun o => Moves o (pathText p) 0) = 1 := hcnt
          omega
        obtain ⟨o, ho, hmv⟩ := List.countP_pos_iff.1 hpos
        simp only [Moves, decide_eq_true_eq] at hmv
        refine List.mem_map.2 ⟨o, List.mem_filter.2 ⟨ho, ?_⟩, hmv.1⟩
        simp; omega
      | _ => exact absurd rfl k2
  have := hin.length_le
  rw [List.length_map, List.length_map, ← List.countP_eq_length_filter] at this
  exact this

end

/-! ### the hypotheses can be met -/

example : pieces demoBundles = 2 ∧ together demoCfg (fun r => if r = 1 then 1 else 0) = 1 := by decide

/-- The demonstration job has two files.  Its workers can open one file together: status 0, and a byte that
is in no file is in a member of the archive. -/
example : ∃ (trF : List FEv) (s : Sys) (left : Nat → Nat),
    OpenRun demoCfg true 102400 [97] demoBase (demoBundles.map printBundle) none (fun r => if r = 1 then 1 else 0) trF s left ∧
    Finished demoCfg 0 s ∧ ∃ A ms, s.file = some A ∧ readArchive A = some ms ∧
      (∃ z ∈ ms, (99 : UInt8) ∈ z.data) ∧ ∀ p n, Seen demoTree p n → (99 : UInt8) ∉ contentOf n := by
  obtain ⟨trF, s, left, h1, h2, A, ms, objs, got, h3, h4, h5, h6, y, hy, off, size, k1, k2, k3, k4⟩ :=
    C73_reported_as_success (cfg := demoCfg) (left0 := fun r => if r = 1 then 1 else 0) demo_job' demo_launchable
      (by decide) rfl (by decide) 99
  refine ⟨trF, s, left, h1, h2, A, ms, h3, h4, ?_, ?_⟩
  · have : ((memberOf demoCfg.env demoBase y.1 y.2).map ({ · with data := got y.1 })) ∈ ms.map some := by
      rw [h6]; exact List.mem_map.2 ⟨y, hy, rfl⟩
    obtain ⟨z, hz, hze⟩ := List.mem_map.1 this
    obtain ⟨m, _, rfl⟩ := Option.map_eq_some_iff.1 hze.symm
    exact ⟨_, hz, List.mem_of_getElem? (k3 0 k1)⟩
  · intro p n hs
    have := demo_seen hs
    simp only [demoSeen, List.mem_cons, List.not_mem_nil, or_false, Prod.mk.injEq] at this
    rcases this with ⟨_, rfl⟩ | ⟨_, rfl⟩ | ⟨_, rfl⟩ | ⟨_, rfl⟩ | ⟨_, rfl⟩ | ⟨_, rfl⟩ | ⟨_, rfl⟩ <;> decide

/-- With two files to open for each worker nothing is lost. -/
example : ∃ (trF : List FEv) (s : Sys) (left : Nat → Nat),
    OpenRun demoCfg true 102400 [97] demoBase (demoBundles.map printBundle) none (fun _ => 2) trF s left ∧
    s.boss = .exit 0 ∧ ∃ A, s.file = some A ∧ ∃ ms, readArchive A = some ms ∧ ms ≠ [] := by
  obtain ⟨_, _, tr, s, h, hfin⟩ := C19_runs_succeed demo_job' demo_launchable (by decide) rfl
    (tr := []) (s := Sys.start _ none) Run.nil
  obtain ⟨trF, f, left, h1, _, h3⟩ := drun_of_run (job_launch demo_job' demo_launchable) (job_workable demo_job')
    (fun _ => 2) (List.replicate 102400 0) List.length_replicate h
  obtain ⟨A, ms, objs, k1, k2, k3, k4, k5⟩ := C73_enough_each_partial demo_job' demo_launchable h1
    (fun _ _ => by decide) hfin.1
  refine ⟨trF, _, left, h1, hfin.1, A, k1, ms, k2, ?_⟩
  rintro rfl
  have : objs = [] := by simpa using k3.symm
  subst this
  have := (k5 [] demoTree).2 ⟨.self _, by simp [demoTree, describe]⟩
  cases this

/-- Both files count. -/
example : ∃ ps : List (List Bytes), ps.length = 2 ∧ ps.Nodup ∧ ∀ p ∈ ps, ∃ n, Seen demoTree p n ∧ contentOf n ≠ [] := by
  refine ⟨[[[98]], [[100], [46, 104]]], rfl, by decide, ?_⟩
  intro p hp
  rcases List.mem_cons.1 hp with rfl | hp
  · exact ⟨.reg ⟨420, 0, 0, 0⟩ [1, 2, 3], .step (.there (.there (.here (by decide) (by decide)))) (.self _), by decide⟩
  · rw [List.mem_singleton] at hp
    subst hp
    exact ⟨.reg ⟨420, 0, 0, 0⟩ [7], .step (.there (.there (.there (.here (by decide) (by decide)))))
      (.step (.here (by decide) (by decide)) (.self _)), by decide⟩

end Parfu.Props
