/-
Property theorems C22-C26, C28, C40: the boss/worker protocol.  All are about every run of the
system, of any length, with any number of ranks and bundles, any schedule, and any mixture of
buffered and synchronous sends (`eager`).
-/
import Verif.ProtocolBoss
set_option autoImplicit false

namespace Parfu.Props
open Parfu ProtocolSpec

/-- A run of the create program of rank 0 with its workers, from the first broadcast on. -/
abbrev CreateRun (c : Cfg) (eager : Bool) (b : Nat) (archive base : Bytes) (orders : List Bytes)
    (file0 : Option Bytes) (tr : List Ev) (s : Sys) : Prop :=
  Run c eager (Sys.start (bossRun c.ranks b archive base orders) file0) tr s

section
variable {c : Cfg} {eager : Bool} {b : Nat} {archive base : Bytes} {orders : List Bytes}
  {file0 : Option Bytes} {tr : List Ev} {s : Sys}

theorem run_inv' (hL : Launch c b archive base orders)
    (h : CreateRun c eager b archive base orders file0 tr s) :
    Inv ⟨c, b, archive, base, orders, file0⟩ tr s :=
  run_inv (K := ⟨c, b, archive, base, orders, file0⟩) hL h

/-- Nothing is dispatched before the open or after a failed open. -/
theorem quiet_empty {K : Konst} (h : Quiet K tr s) :
    dispatched tr = [] ∧ executed tr = [] ∧ writes tr = [] ∧ acknowledged tr = [] ∧ shutdowns tr = [] := by
  refine ⟨?_, ?_, ?_, ?_, ?_⟩ <;>
    first
    | rw [dispatched, List.filterMap_eq_nil_iff]
    | rw [executed, List.filterMap_eq_nil_iff]
    | rw [writes, List.filterMap_eq_nil_iff]
    | rw [acknowledged, List.filterMap_eq_nil_iff]
    | rw [shutdowns, List.filterMap_eq_nil_iff]
  all_goals
    intro e he
    cases e <;> first
      | rfl
      | exact absurd he (h.noSend _ _)
      | exact absurd he (h.noWrite _ _ _ _ _ _)
      | exact absurd he (h.noAck _)

/-! ### C22 -/

/-- **C22** At every moment of every run: the bundles sent so far are the first ones of the list, in
order and each once, each to one worker; what a worker has carried out is what it was sent, in that
order, up to at most one bundle that is still to be done. -/
theorem C22_dispatch_in_order (hL : Launch c b archive base orders)
    (h : CreateRun c eager b archive base orders file0 tr s) :
    (∃ n, (dispatched tr).map Prod.snd = orders.take n) ∧
    (∀ x ∈ dispatched tr, c.worker x.1) ∧
    (∀ x ∈ executed tr, c.worker x.1) ∧
    (∀ r, c.worker r → ∃ rest, rest.length ≤ 1 ∧
      ofRank r (dispatched tr) = ofRank r (executed tr) ++ rest) := by
  cases run_inv' hL h with
  | pre i hc hq hi views len =>
    obtain ⟨h1, h2, _⟩ := quiet_empty hq
    rw [h1, h2]
    exact ⟨⟨0, by simp⟩, by simp, by simp, fun r _ => ⟨[], by simp, rfl⟩⟩
  | failed x hc hq hb' views hfile len =>
    obtain ⟨h1, h2, _⟩ := quiet_empty hq
    rw [h1, h2]
    exact ⟨⟨0, by simp⟩, by simp, by simp, fun r _ => ⟨[], by simp, rfl⟩⟩
  | post g pt hc hp =>
    refine ⟨⟨g.no, hp.sentC⟩, hp.dRanks, hp.eRanks, fun r hr => ⟨_, ?_, hp.perRank r hr⟩⟩
    split
    · simp
    · cases g.out r <;> simp

theorem count_ofRank (l : List (Nat × Bytes)) (r : Nat) (t : Bytes) :
    l.count (r, t) = (ofRank r l).count t := by
  induction l with
  | nil => rfl
  | cons x l ih =>
    obtain ⟨q, u⟩ := x
    unfold ofRank at *
    rw [List.filterMap_cons]
    by_cases hq : q = r
    · subst hq
      simp only [if_true]
      rw [List.count_cons, List.count_cons, ih]
      congr 1
      by_cases hu : u = t
      · simp [hu]
      · have : ¬ ((q, u) = (q, t)) := by intro h; exact hu (Prod.mk.inj h).2
        simp [hu]
    · simp only [if_neg hq]
      rw [List.count_cons, ih]
      have : ¬ ((q, u) = (r, t)) := by intro h; exact hq (Prod.mk.inj h).1
      simp [hq]

theorem perm_of_ofRank {l l' : List (Nat × Bytes)} (h : ∀ x ∈ l, c.worker x.1) (h' : ∀ x ∈ l', c.worker x.1)
    (hr : ∀ r, c.worker r → ofRank r l = ofRank r l') : l.Perm l' := by
  rw [List.perm_iff_count]
  rintro ⟨r, t⟩
  by_cases hw : c.worker r
  · rw [count_ofRank, count_ofRank, hr r hw]
  · rw [List.count_eq_zero_of_not_mem (fun hm => hw (h _ hm)),
      List.count_eq_zero_of_not_mem (fun hm => hw (h' _ hm))]

/-- Rank 0 is past the dispatch: everything has been sent, done and reported. -/
theorem all_done {K : Konst} {g : Ghost} {pt : Pt} (hp : Post K g pt tr s)
    (hno : g.no = K.orders.length) (hout : ∀ r, K.c.worker r → g.out r = none) :
    (dispatched tr).map Prod.snd = K.orders ∧ (executed tr).Perm (dispatched tr) ∧
    (acknowledged tr).length = K.orders.length := by
  refine ⟨?_, ?_, ?_⟩
  · rw [hp.sentC, hno, List.take_length]
  · refine perm_of_ofRank hp.eRanks hp.dRanks ?_
    intro r hr
    have := hp.perRank r hr
    rw [hout r hr] at this
    simp at this
    exact this.symm
  · have := hp.acked
    rw [nOut_none (fun r h1 h2 => hout r ⟨h1, h2⟩)] at this
    omega

theorem boss_exit0 (hL : Launch c b archive base orders) {K : Konst}
    (hK : K = ⟨c, b, archive, base, orders, file0⟩) (h : Inv K tr s) (hb : s.boss = .exit 0) :
    ∃ g, Post K g (.x c.ranks) tr s := by
  subst hK
  cases h with
  | pre i hc hq hi views len =>
    exfalso
    rcases hi with ⟨_, h⟩ | ⟨k, _, h1, h⟩ | ⟨k, _, h1, h⟩
    · rw [h] at hb; cases hb
    · cases h1; rw [h] at hb; cases hb
    · cases h1; rw [h] at hb; cases hb
  | failed x hc hq hb' views hfile len =>
    exfalso
    rw [hb'] at hb; cases x <;> cases hb
  | post g pt hc hp =>
    obtain ⟨pt, hp, hn⟩ := hp.normal hL
    rcases prog_cases pt hn hp.at_ with ⟨_, h⟩ | ⟨j, rfl, hj, h⟩ | ⟨j, rfl, hj, hj2, h⟩ | ⟨_, _, h⟩ |
      ⟨_, _, _, h⟩ | ⟨no, r', rfl, h⟩ | ⟨_, _, h⟩ | ⟨j, rfl, hj, h⟩ | ⟨j, rfl, hj, h⟩
    iterate 8 (rw [hp.boss, h] at hb; cases hb)
    refine ⟨g, ?_⟩
    subst hj
    exact hp

/-- **C22** When rank 0 has ended normally, every bundle has been sent exactly once and carried out
exactly once, by the worker it was sent to. -/
theorem C22_exactly_once (hL : Launch c b archive base orders)
    (h : CreateRun c eager b archive base orders file0 tr s) (hb : s.boss = .exit 0) :
    (dispatched tr).map Prod.snd = orders ∧ (executed tr).Perm (dispatched tr) := by
  obtain ⟨g, hp⟩ := boss_exit0 hL rfl (run_inv' hL h) hb
  obtain ⟨a1, a2, a3, a4, a5, a6, a7⟩ := hp.at_
  obtain ⟨h1, h2, _⟩ := all_done hp a6 a7
  exact ⟨h1, h2⟩

/-! ### C23 -/

/-- **C23** At every moment, a worker has been sent at most one bundle more than it has reported
done, and at most one more than it has carried out. -/
theorem C23_one_in_hand (hL : Launch c b archive base orders)
    (h : CreateRun c eager b archive base orders file0 tr s) (r : Nat) (hr : c.worker r) :
    (ofRank r (dispatched tr)).length ≤ (acknowledged tr).count r + 1 ∧
    (acknowledged tr).count r ≤ (ofRank r (executed tr)).length ∧
    (ofRank r (dispatched tr)).length ≤ (ofRank r (executed tr)).length + 1 := by
  cases run_inv' hL h with
  | pre i hc hq hi views len =>
    obtain ⟨h1, h2, h3, h4, h5⟩ := quiet_empty hq
    rw [h1, h2, h4]; simp [ofRank]
  | failed x hc hq hb' views hfile len =>
    obtain ⟨h1, h2, h3, h4, h5⟩ := quiet_empty hq
    rw [h1, h2, h4]; simp [ofRank]
  | post g pt hc hp =>
    have h1 := hp.ackR r hr
    have h2 := congrArg List.length (hp.perRank r hr)
    rw [List.length_append] at h2
    cases ho : g.out r with
    | none =>
      rw [ho] at h1 h2
      simp at h1 h2
      omega
    | some t =>
      rw [ho] at h1 h2
      simp at h1
      have : (if g.wr r then [] else (some t : Option Bytes).toList).length ≤ 1 := by
        split <;> simp
      omega

/-- **C23** A worker that is carrying out a bundle has no other one waiting for it. -/
theorem C23_buffer_not_shared (hL : Launch c b archive base orders)
    (h : CreateRun c eager b archive base orders file0 tr s) (r : Nat) (hr : c.worker r) (t : Bytes)
    (hw : (s.w r).stat = .working t) : s.pq r = [] ∧ s.bq r = [] := by
  cases run_inv' hL h with
  | pre i hc hq hi views len =>
    exfalso
    have hv := views r hr
    generalize hl : s.loc r = l at hv
    rw [Sys.loc] at hl
    cases hv <;> simp only [Loc.mk.injEq] at hl <;> rw [hl.1] at hw <;> cases hw
  | failed x hc hq hb' views hfile len =>
    exfalso
    have hv := views r hr
    generalize hl : s.loc r = l at hv
    rw [Sys.loc] at hl
    cases hv <;> simp only [Loc.mk.injEq] at hl <;> rw [hl.1] at hw <;> cases hw
  | post g pt hc hp =>
    have hv := hp.views r hr
    generalize hl : s.loc r = l at hv
    rw [Sys.loc] at hl
    generalize decide (r < g.pj) = p at hv
    generalize decide (r < g.xj) = x at hv
    generalize g.nn = N at hv
    generalize g.out r = o at hv
    generalize g.wr r = wr at hv
    cases hv <;> simp only [Loc.mk.injEq] at hl <;> rw [hl.1] at hw <;> first
      | exact ⟨hl.2.2.1, hl.2.1⟩
      | cases hw

/-! ### C24 -/

/-- **C24** Whenever a shutdown has been sent to anybody, every bundle has been sent, carried out and
reported. -/
theorem C24_shutdown_after_work (hL : Launch c b archive base orders)
    (h : CreateRun c eager b archive base orders file0 tr s) (hx : shutdowns tr ≠ []) :
    (dispatched tr).map Prod.snd = orders ∧ (executed tr).Perm (dispatched tr) ∧
    (acknowledged tr).length = orders.length := by
  cases run_inv' hL h with
  | pre i hc hq hi views len => exact absurd (quiet_empty hq).2.2.2.2 hx
  | failed x hc hq hb' views hfile len => exact absurd (quiet_empty hq).2.2.2.2 hx
  | post g pt hc hp =>
    have hd := hp.downs
    have hxj : g.xj ≠ 1 := by intro h; rw [h] at hd; exact hx hd
    have ha := hp.at_
    cases pt with
    | x j => exact all_done hp ha.2.2.2.2.2.1 ha.2.2.2.2.2.2
    | n => exact absurd ha.2.2.1 hxj
    | p j => exact absurd ha.2.2.2.2.1 hxj
    | d1 j => exact absurd ha.2.2.1 hxj
    | all m => exact absurd ha.2.2.1 hxj
    | d2 no => exact absurd ha.2.2.1 hxj
    | d2s no r => exact absurd ha.2.2.1 hxj
    | last m => exact absurd ha.2.2.1 hxj

/-- **C24** If a worker has failed, no worker is ever told to shut down and rank 0 does not end
normally: an incomplete archive is never passed off as finished. -/
theorem C24_failure_blocks (hL : Launch c b archive base orders)
    (h : CreateRun c eager b archive base orders file0 tr s) (r : Nat) (hr : c.worker r) (e : Err)
    (hd : (s.w r).stat = .dead e) : shutdowns tr = [] ∧ s.boss ≠ .exit 0 := by
  have key : ∀ g pt, Post ⟨c, b, archive, base, orders, file0⟩ g pt tr s → (g.out r).isSome = true := by
    intro g pt hp
    have hv := hp.views r hr
    generalize hl : s.loc r = l at hv
    rw [Sys.loc] at hl
    generalize decide (r < g.pj) = p at hv
    generalize decide (r < g.xj) = x at hv
    generalize g.nn = N at hv
    generalize g.out r = o at hv
    generalize g.wr r = wr at hv
    cases hv <;> simp only [Loc.mk.injEq] at hl <;> rw [hl.1] at hd <;> first
      | rfl
      | cases hd
  have hI := run_inv' hL h
  refine ⟨?_, ?_⟩
  · by_contra hx
    cases hI with
    | pre i hc hq hi views len => exact hx (quiet_empty hq).2.2.2.2
    | failed x hc hq hb' views hfile len => exact hx (quiet_empty hq).2.2.2.2
    | post g pt hc hp =>
      have hk := key g pt hp
      have hd := hp.downs
      have hxj : g.xj ≠ 1 := by intro h; rw [h] at hd; exact hx hd
      have ha := hp.at_
      cases pt with
      | x j => have := ha.2.2.2.2.2.2 r hr; rw [this] at hk; cases hk
      | n => exact absurd ha.2.2.1 hxj
      | p j => exact absurd ha.2.2.2.2.1 hxj
      | d1 j => exact absurd ha.2.2.1 hxj
      | all m => exact absurd ha.2.2.1 hxj
      | d2 no => exact absurd ha.2.2.1 hxj
      | d2s no r => exact absurd ha.2.2.1 hxj
      | last m => exact absurd ha.2.2.1 hxj
  · intro hb
    obtain ⟨g, hp⟩ := boss_exit0 hL rfl hI hb
    have hk := key g _ hp
    have := hp.at_.2.2.2.2.2.2 r hr
    rw [this] at hk; cases hk

/-! ### C25 -/

/-- A worker that cannot move, after the open; possible steps with an event in `X` do not count. -/
theorem View.quiescentX {K : Konst} {N p x wr : Bool}
    {o : Option Bytes} {r : Nat} {s : Sys} (hr : K.c.worker r) (hD : ∀ e, (s.w r).stat ≠ .dead e)
    (hf : ∃ f, s.file = some f)
    (hv : View K N p x o wr (s.loc r)) (X : Ev → Prop)
    (hX : (∀ m, ¬ X (.got r m)) ∧ ¬ X .sendDone ∧ (∀ t ba ar m w, ¬ X (.wrote r t ba ar m w)) ∧ ¬ X (.failed r))
    (hno' : ∀ e s', Step K.c false s e s' → X e) :
    s.bq r = [] ∧ s.pq r = [] ∧
    ((o = none ∧ x = false ∧ (s.w r).stat = .wait) ∨ (∃ t, o = some t ∧ x = false ∧ r ∈ s.acks.map Prod.fst) ∨
     (o = none ∧ x = true ∧ (s.w r).stat = .ended 0)) := by
  have hgb : ∀ m rest, s.bq r = m :: rest → (s.w r).stat = .wait → (s.w r).mode = .bcast → False := by
    intro m rest h1 h2 h3; exact hX.1 _ (hno' _ _ (.getBcast s r m rest hr h2 h3 h1))
  have hgs : ∀ m rest, s.pq r = m :: rest → (s.w r).stat = .wait → (s.w r).mode = .indiv → False := by
    intro m rest h1 h2 h3; exact hX.1 _ (hno' _ _ (.getSend s r m rest hr h2 h3 h1))
  generalize hl : s.loc r = l at hv
  rw [Sys.loc] at hl
  have hwait : ∀ w : WSt, w.stat = .wait → w.mode = .indiv → s.w r = w → s.pq r = [] := by
    intro w h1 h2 h3
    cases hpq : s.pq r with
    | nil => rfl
    | cons m rest => exact (hgs m rest hpq (by rw [h3, h1]) (by rw [h3, h2])).elim
  have hcount : ∀ n, (s.acks.map Prod.fst).count r = n → 0 < n → r ∈ s.acks.map Prod.fst := by
    intro n h1 h2; exact List.count_pos_iff.1 (by omega)
  have hcount0 : (s.acks.map Prod.fst).count r = 0 → (s.w r).stat = .acking → False := by
    intro h1 h2
    refine hX.2.1 (hno' _ _ (.ackDone s r hr h2 (Or.inr ?_)))
    intro a ha hc
    have : r ∈ s.acks.map Prod.fst := List.mem_map.2 ⟨a, ha, hc⟩
    exact absurd h1 (Nat.ne_of_gt (List.count_pos_iff.2 this))
  have hmsgs : ∀ q, K.msgs false o q = [] → o = none ∧ q = false := by
    intro q h
    cases o <;> cases q <;> simp [Konst.msgs] at h <;> exact ⟨rfl, rfl⟩
  cases hv with
  | ready => simp only [Loc.mk.injEq] at hl; exact (hgb _ _ hl.2.1 (by rw [hl.1]; rfl) (by rw [hl.1]; rfl)).elim
  | before =>
    simp only [Loc.mk.injEq] at hl
    exact ⟨hl.2.1, hl.2.2.1, Or.inl ⟨rfl, rfl, by rw [hl.1]; rfl⟩⟩
  | indiv _ _ _ h1 h2 =>
    simp only [Loc.mk.injEq] at hl
    have h3 := hwait _ rfl rfl hl.1
    rw [h3] at hl
    have : p = false := by
      cases p with
      | false => rfl
      | true => simp [Konst.msgs] at hl
    obtain ⟨rfl, rfl⟩ := h1 this
    exact ⟨hl.2.1, h3, Or.inl ⟨rfl, rfl, by rw [hl.1]; rfl⟩⟩
  | based _ _ h2 =>
    simp only [Loc.mk.injEq] at hl
    have h3 := hwait _ rfl rfl hl.1
    rw [h3] at hl
    obtain ⟨rfl, rfl⟩ := hmsgs _ hl.2.2.1.symm
    exact ⟨hl.2.1, h3, Or.inl ⟨rfl, rfl, by rw [hl.1]; rfl⟩⟩
  | basedA => simp only [Loc.mk.injEq] at hl; exact (hcount0 hl.2.2.2 (by rw [hl.1])).elim
  | work t =>
    exfalso
    simp only [Loc.mk.injEq] at hl
    obtain ⟨f, hf⟩ := hf
    cases hw : workerDo K.c.env K.c.fs (s.w r).base (zeros K.b) t with
    | ok w =>
      exact hX.2.2.1 _ _ _ _ _ (hno' _ _ (.work s r t K.archive (zeros K.b) f w hr (by rw [hl.1]) (by rw [hl.1]; rfl)
        (by rw [hl.1]; simp [zeros]; rfl) hf hw))
    | error e =>
      exact hX.2.2.2 (hno' _ _ (.workFails s r t (zeros K.b) e hr (by rw [hl.1])
        (by rw [hl.1]; simp [zeros]; rfl) (.inl hw)))
  | done t =>
    simp only [Loc.mk.injEq] at hl
    exact ⟨hl.2.1, hl.2.2.1, Or.inr (Or.inl ⟨t, rfl, rfl, hcount _ hl.2.2.2 (by omega)⟩)⟩
  | doneA t =>
    simp only [Loc.mk.injEq] at hl
    exact ⟨hl.2.1, hl.2.2.1, Or.inr (Or.inl ⟨t, rfl, rfl, hcount _ hl.2.2.2 (by omega)⟩)⟩
  | gone =>
    simp only [Loc.mk.injEq] at hl
    exact ⟨hl.2.1, hl.2.2.1, Or.inr (Or.inr ⟨rfl, rfl, by rw [hl.1]⟩)⟩
  | dead t memory e hm he =>
    exfalso
    simp only [Loc.mk.injEq] at hl
    exact hD e (by rw [hl.1])

/-- A worker that cannot move, after the open. -/
theorem View.quiescent {K : Konst} {N p x wr : Bool}
    {o : Option Bytes} {r : Nat} {s : Sys} (hr : K.c.worker r) (hD : ∀ e, (s.w r).stat ≠ .dead e)
    (hf : ∃ f, s.file = some f)
    (hv : View K N p x o wr (s.loc r)) (hno : ∀ e s', ¬ Step K.c false s e s') :
    s.bq r = [] ∧ s.pq r = [] ∧
    ((o = none ∧ x = false ∧ (s.w r).stat = .wait) ∨ (∃ t, o = some t ∧ x = false ∧ r ∈ s.acks.map Prod.fst) ∨
     (o = none ∧ x = true ∧ (s.w r).stat = .ended 0)) :=
  View.quiescentX hr hD hf hv (fun _ => False) (by simp) (fun e s' h => hno e s' h)

/-- A worker that has failed has done so with one of the bundles. -/
theorem dead_had_bundle (hL : Launch c b archive base orders)
    (h : CreateRun c eager b archive base orders file0 tr s) (r : Nat) (hr : c.worker r) (e : Err)
    (hd : (s.w r).stat = .dead e) :
    ∃ t ∈ orders, ∃ memory : Bytes, memory.length = b ∧ workerDo c.env c.fs base memory t = .error e := by
  cases run_inv' hL h with
  | pre i hc hq hi views len =>
    have hv := views r hr
    generalize hl : s.loc r = l at hv
    rw [Sys.loc] at hl
    cases hv <;> simp only [Loc.mk.injEq] at hl <;> rw [hl.1] at hd <;> cases hd
  | failed x hc hq hb' views hfile len =>
    have hv := views r hr
    generalize hl : s.loc r = l at hv
    rw [Sys.loc] at hl
    cases hv <;> simp only [Loc.mk.injEq] at hl <;> rw [hl.1] at hd <;> cases hd
  | post g pt hc hp =>
    have hv := hp.views r hr
    have ho := fun t ht => hp.orders r t hr ht
    generalize hl : s.loc r = l at hv
    rw [Sys.loc] at hl
    generalize decide (r < g.pj) = p at hv
    generalize decide (r < g.xj) = x at hv
    generalize g.nn = N at hv
    generalize g.out r = o at hv ho
    generalize g.wr r = wr at hv
    cases hv with
    | dead t memory e' hm he =>
      simp only [Loc.mk.injEq] at hl
      rw [hl.1] at hd
      simp only [WStat.dead.injEq] at hd
      subst hd
      exact ⟨t, ho t rfl, memory, hm, he⟩
    | _ => exfalso; simp only [Loc.mk.injEq] at hl; rw [hl.1] at hd; cases hd

/-- **C25, exactly** With at least one worker the only thing that can stop a run short of its end is a
worker that fails while it carries out a bundle: in every state of every run in which no worker has
failed, either all processes have ended, or something can happen, even if every send waits for its
receiver. -/
theorem C25_only_failure_stops (hL : Launch c b archive base orders)
    (hr2 : 2 ≤ c.ranks) (h : CreateRun c eager b archive base orders file0 tr s)
    (hD : ∀ r, c.worker r → ∀ e, (s.w r).stat ≠ .dead e) :
    Finished c 0 s ∨ Finished c 1 s ∨ ∃ e s', Step c false s e s' := by
  by_cases hno : ∃ e s', Step c false s e s'
  · exact Or.inr (Or.inr hno)
  simp only [not_exists] at hno
  have hI := run_inv' hL h
  have w1 : c.worker 1 := ⟨Nat.le_refl _, hr2⟩
  cases hI with
  | pre i hc hq hi views len =>
    exfalso
    have hbq : ∀ r, c.worker r → s.bq r = [] := by
      intro r hr
      cases hb : s.bq r with
      | nil => rfl
      | cons m rest =>
        exfalso
        have hv := views r hr
        generalize hl : s.loc r = l at hv
        rw [Sys.loc] at hl
        refine hno _ _ (.getBcast s r m rest hr ?_ ?_ hb) <;>
          cases hv <;> simp only [Loc.mk.injEq] at hl <;> first
            | (rw [hl.1]; rfl)
            | (rw [hb] at hl; exact absurd hl.2.1 (by simp))
    have hpend : s.pend = none := by
      cases hp : s.pend with
      | none => rfl
      | some q =>
        cases q with
        | one r => exact absurd hp (hq.noP2p r)
        | all => exact absurd (Step.bcastDone s hp (Or.inr hbq)) (hno _ _)
    rcases hi with ⟨rfl, h⟩ | ⟨k, rfl, h1, h⟩ | ⟨k, rfl, h1, h⟩
    · exact hno _ _ (.bcast s _ _ hpend h)
    · unfold bossRun at h1
      injection h1 with _ h1
      exact hno _ _ (.bcast s _ _ hpend (by rw [h, ← h1]))
    · unfold bossRun at h1
      injection h1 with _ h1
      injection h1 with _ h1
      refine hno _ _ (.openFile s archive _ hpend (by rw [h, ← h1]) ?_)
      intro r hr
      have hv := views r hr
      have hb := hbq r hr
      generalize hl : s.loc r = l at hv
      rw [Sys.loc, hb] at hl
      cases hv <;> simp only [Loc.mk.injEq] at hl
      · exact absurd hl.2.1 (by simp)
      · exact absurd hl.2.1 (by simp)
      · rw [hl.1]
  | failed x hc hq hb' views hfile len =>
    have hbq : ∀ r, c.worker r → s.bq r = [] := by
      intro r hr
      cases hb : s.bq r with
      | nil => rfl
      | cons m rest =>
        exfalso
        have hv := views r hr
        generalize hl : s.loc r = l at hv
        rw [Sys.loc] at hl
        refine hno _ _ (.getBcast s r m rest hr ?_ ?_ hb) <;>
          cases hv <;> simp only [Loc.mk.injEq] at hl <;> first
            | (rw [hl.1]; rfl)
            | (rw [hb] at hl; exact absurd hl.2.1 (by simp))
    have hpend : s.pend = none := by
      cases hp : s.pend with
      | none => rfl
      | some q =>
        cases q with
        | one r => exact absurd hp (hq.noP2p r)
        | all => exact absurd (Step.bcastDone s hp (Or.inr hbq)) (hno _ _)
    cases x with
    | false => exact absurd (Step.bcast s _ _ hpend hb') (hno _ _)
    | true =>
      refine Or.inr (Or.inl ⟨hb', ?_⟩)
      intro r hr
      have hv := views r hr
      have hb := hbq r hr
      generalize hl : s.loc r = l at hv
      rw [Sys.loc, hb] at hl
      cases hv <;> simp only [Loc.mk.injEq] at hl
      · exact absurd hl.2.1 (by simp)
      · rw [hl.1]
  | post g pt hc hp =>
    obtain ⟨pt, hp, hn⟩ := hp.normal hL
    have hq := fun r (hr : c.worker r) =>
      View.quiescent hr (hD r hr) ⟨_, hp.file⟩ (hp.views r hr) (fun e s' => hno e s')
    have hpend : s.pend = none := by
      cases hpd : s.pend with
      | none => rfl
      | some q =>
        cases q with
        | one r =>
          have hr := hc.pendOk r hpd
          exact absurd (Step.sendDone s r hpd (Or.inr (hq r hr).2.1)) (hno _ _)
        | all => exact absurd (Step.bcastDone s hpd (Or.inr fun r hr => (hq r hr).1)) (hno _ _)
    have hrecv : ∀ k, s.boss = .recv k → 0 < nOut c.ranks g.out → False := by
      intro k hb hpos
      obtain ⟨r, t, h1, h2, h3⟩ := nOut_pos hpos
      rcases (hq r ⟨h1, h2⟩).2.2 with ⟨h, _⟩ | ⟨t', _, _, hm⟩ | ⟨h, _⟩
      · rw [h3] at h; cases h
      · obtain ⟨⟨r', a⟩, ha, rfl⟩ := List.mem_map.1 hm
        obtain ⟨l1, l2, hl⟩ := List.append_of_mem ha
        exact hno _ _ (.recv s k l1 l2 _ a hpend hb hl)
      · rw [h3] at h; cases h
    have hat := hp.at_
    have hboss := hp.boss
    rcases prog_cases pt hn hp.at_ with ⟨_, h⟩ | ⟨j, rfl, hj, h⟩ | ⟨j, rfl, hj, hj2, h⟩ | ⟨m, rfl, h⟩ |
      ⟨no, rfl, _, h⟩ | ⟨no, r', rfl, h⟩ | ⟨m, rfl, h⟩ | ⟨j, rfl, hj, h⟩ | ⟨j, rfl, hj, h⟩ <;>
      rw [h] at hboss
    · exact absurd (Step.bcast s _ _ hpend hboss) (hno _ _)
    · exact absurd (Step.send s _ _ _ hpend hboss ⟨hat.2.2.1, hj⟩) (hno _ _)
    · exact absurd (Step.send s _ _ _ hpend hboss ⟨hat.2.2.2.1, hj⟩) (hno _ _)
    · exact (hrecv _ hboss (by have := hat.2.2.2.2; simp only at this; omega)).elim
    · refine (hrecv _ hboss ?_).elim
      have : nOut c.ranks g.out = c.ranks - 1 := nOut_all (fun r h1 h2 => hat.2.2.2.2.2 r ⟨h1, h2⟩)
      omega
    · exact absurd (Step.send s _ _ _ hpend hboss hat.2.2.2.2.2.1) (hno _ _)
    · exact (hrecv _ hboss (by have := hat.2.2.2.2; simp only at this; omega)).elim
    · exact absurd (Step.send s _ _ _ hpend hboss ⟨hat.2.2.2.1, hj⟩) (hno _ _)
    · refine Or.inl ⟨hboss, ?_⟩
      intro r hr
      have hx : decide (r < g.xj) = true := by
        rw [hat.2.2.1, hj]; exact decide_eq_true hr.2
      rcases (hq r hr).2.2 with ⟨_, h, _⟩ | ⟨_, _, h, _⟩ | ⟨_, _, h⟩
      · rw [hx] at h; cases h
      · rw [hx] at h; cases h
      · exact h

/-- **C25** With at least one worker, and when every bundle can be carried out, the system never
deadlocks: in every state of every run either all processes have ended, or something can happen,
even if every send waits for its receiver. -/
theorem C25_no_deadlock (hL : Launch c b archive base orders) (hW : Workable c b base orders)
    (hr2 : 2 ≤ c.ranks) (h : CreateRun c eager b archive base orders file0 tr s) :
    Finished c 0 s ∨ Finished c 1 s ∨ ∃ e s', Step c false s e s' := by
  refine C25_only_failure_stops hL hr2 h fun r hr e hd => ?_
  obtain ⟨t, ht, memory, hm, he⟩ := dead_had_bundle hL h r hr e hd
  obtain ⟨w, hw⟩ := hW t ht memory hm
  rw [he] at hw; cases hw

/-- **C25** Every run is finite: it has at most `(2n+6)(8+6n+3m)` steps for `n` ranks and `m`
bundles, whatever the schedule. -/
theorem C25_bounded (hL : Launch c b archive base orders)
    (h : CreateRun c eager b archive base orders file0 tr s) :
    tr.length ≤ (2 * c.ranks + 6) * (8 + 6 * c.ranks + 3 * orders.length) := by
  have hb : bound ⟨c, b, archive, base, orders, file0⟩ =
    (2 * c.ranks + 6) * (8 + 6 * c.ranks + 3 * orders.length) := rfl
  rw [← hb]
  cases run_inv' hL h with
  | pre i hc hq hi views len => omega
  | failed x hc hq hb' views hfile len => omega
  | post g pt hc hp => have := hp.len; omega

/-- **C25** From every state of every run, the run can be continued to its end; and (`C25_bounded`,
`C25_no_deadlock`) it cannot be continued in any other way for ever. -/
theorem C25_reaches_end (hL : Launch c b archive base orders) (hW : Workable c b base orders)
    (hr2 : 2 ≤ c.ranks) (h : CreateRun c eager b archive base orders file0 tr s) :
    ∃ more s', CreateRun c eager b archive base orders file0 (tr ++ more) s' ∧
      (Finished c 0 s' ∨ Finished c 1 s') := by
  generalize hm : (2 * c.ranks + 6) * (8 + 6 * c.ranks + 3 * orders.length) - tr.length = m
  induction m using Nat.strongRecOn generalizing tr s with
  | ind m ih =>
    rcases C25_no_deadlock hL hW hr2 h with h0 | h1 | ⟨e, s', hst⟩
    · exact ⟨[], s, by simpa using h, Or.inl h0⟩
    · exact ⟨[], s, by simpa using h, Or.inr h1⟩
    · have hst' : Step c eager s e s' := by
        cases eager with
        | false => exact hst
        | true => exact hst.eager
      have hrun : CreateRun c eager b archive base orders file0 (tr ++ [e]) s' := .snoc h hst'
      have hb := C25_bounded hL hrun
      simp only [List.length_append, List.length_singleton] at hb
      obtain ⟨more, s2, h2, h3⟩ := ih _ (by
        rw [← hm]
        show (2 * c.ranks + 6) * (8 + 6 * c.ranks + 3 * orders.length) - (tr ++ [e]).length < _
        simp only [List.length_append, List.length_singleton]
        omega) hrun rfl
      exact ⟨e :: more, s2, by simpa using h2, h3⟩

/-- Whether the run ends with status 0 or 1 depends only on whether the archive could be made. -/
theorem C25_outcome (hL : Launch c b archive base orders)
    (h : CreateRun c eager b archive base orders file0 tr s) :
    (s.boss = .exit 0 → openResult c file0 = some []) ∧ (s.boss = .exit 1 → openResult c file0 = none) := by
  constructor
  · intro hb
    have hI := run_inv' hL h
    obtain ⟨g, hp⟩ := boss_exit0 hL rfl hI hb
    -- the file was made, so it could be made
    have hf : file0 = none := hp.fresh
    cases hc : c.creatable with
    | true => rw [hf]; simp [openResult, hc]
    | false =>
      exfalso
      -- a successful open needs a creatable file
      have : ∀ (tr : List Ev) (s : Sys), CreateRun c eager b archive base orders file0 tr s → s.file = none := by
        intro tr s h
        induction h with
        | nil => exact hf
        | snoc h st ih =>
          cases st with
          | openFile name k hp hb hw => simp [ih, openResult, hc]
          | work r text name memory old write hr hs hf hm ho hd => rw [ih] at ho; cases ho
          | _ => exact ih
      have h1 := this tr s h
      have h2 := hp.file
      rw [h1] at h2; cases h2
  · intro hb
    have hI := run_inv' hL h
    cases hI with
    | pre i hc hq hi views len =>
      exfalso
      rcases hi with ⟨_, h⟩ | ⟨k, _, h1, h⟩ | ⟨k, _, h1, h⟩
      · rw [h] at hb; cases hb
      · cases h1; rw [h] at hb; cases hb
      · cases h1; rw [h] at hb; cases hb
    | failed x hc hq hb' views hfile len => exact hfile
    | post g pt hc hp =>
      exfalso
      obtain ⟨pt, hp, hn⟩ := hp.normal hL
      rcases prog_cases pt hn hp.at_ with ⟨_, h⟩ | ⟨j, rfl, hj, h⟩ | ⟨j, rfl, hj, hj2, h⟩ | ⟨_, _, h⟩ |
        ⟨_, _, _, h⟩ | ⟨no, r', rfl, h⟩ | ⟨_, _, h⟩ | ⟨j, rfl, hj, h⟩ | ⟨j, rfl, hj, h⟩ <;>
        rw [hp.boss, h] at hb <;> cases hb

/-- Every run can be continued until nothing more can happen. -/
theorem reaches_stuck (hL : Launch c b archive base orders)
    (h : CreateRun c true b archive base orders file0 tr s) :
    ∃ more s', CreateRun c true b archive base orders file0 (tr ++ more) s' ∧ Stuck c s' := by
  generalize hm : (2 * c.ranks + 6) * (8 + 6 * c.ranks + 3 * orders.length) - tr.length = m
  induction m using Nat.strongRecOn generalizing tr s with
  | ind m ih =>
    by_cases hs : Stuck c s
    · exact ⟨[], s, by simpa using h, hs⟩
    · simp only [Stuck, not_forall, not_not] at hs
      obtain ⟨e, s', hst⟩ := hs
      have hrun : CreateRun c true b archive base orders file0 (tr ++ [e]) s' := .snoc h hst
      have hb := C25_bounded hL hrun
      simp only [List.length_append, List.length_singleton] at hb
      obtain ⟨more, s2, h2, h3⟩ := ih _ (by
        rw [← hm]
        show (2 * c.ranks + 6) * (8 + 6 * c.ranks + 3 * orders.length) - (tr ++ [e]).length < _
        simp only [List.length_append, List.length_singleton]
        omega) hrun rfl
      exact ⟨e :: more, s2, by simpa using h2, h3⟩

/-- **C25, why a worker is needed** Started as a single process, with something to archive and an
archive that can be created, the program hangs: no run ever ends, and every run comes to a state
where nothing can happen. -/
theorem C25_no_worker_hangs (hL : Launch c b archive base orders) (h1 : c.ranks = 1)
    (ho : orders ≠ []) (hf : openResult c file0 = some [])
    (h : CreateRun c true b archive base orders file0 tr s) :
    s.boss ≠ .exit 0 ∧ s.boss ≠ .exit 1 ∧
    ∃ more s', CreateRun c true b archive base orders file0 (tr ++ more) s' ∧ Stuck c s' ∧
      s'.boss ≠ .exit 0 ∧ s'.boss ≠ .exit 1 := by
  have key : ∀ (tr : List Ev) (s : Sys), CreateRun c true b archive base orders file0 tr s →
      s.boss ≠ .exit 0 ∧ s.boss ≠ .exit 1 := by
    intro tr s h
    refine ⟨?_, ?_⟩
    · intro hb
      have h2 := (C22_exactly_once hL h hb).1
      have h3 := (C22_dispatch_in_order hL h).2.1
      cases hd : dispatched tr with
      | nil => rw [hd] at h2; exact ho h2.symm
      | cons x l =>
        have := h3 x (by rw [hd]; simp)
        have h4 := this.1
        have h5 := this.2
        omega
    · intro hb
      have := (C25_outcome hL h).2 hb
      rw [hf] at this; cases this
  obtain ⟨more, s', h2, h3⟩ := reaches_stuck hL h
  exact ⟨(key _ _ h).1, (key _ _ h).2, more, s', h2, h3, key _ _ h2⟩

/-! ### C26 -/

/-- **C26** Whatever a worker carries out, it does with a buffer of the bucket size rank 0 announced,
relative to the base path rank 0 announced, and into the archive all ranks opened. -/
theorem C26_configured_before_work (hL : Launch c b archive base orders)
    (h : CreateRun c eager b archive base orders file0 tr s) (r : Nat) (t ba ar memory : Bytes)
    (w : WriteReq) (he : Ev.wrote r t ba ar memory w ∈ tr) :
    ba = base ∧ ar = archive ∧ memory.length = b ∧ Ev.opened true ∈ tr := by
  have h4 : ∀ (tr : List Ev) (s : Sys), CreateRun c eager b archive base orders file0 tr s →
      Ev.opened true ∈ tr ∨ (∀ r, ∀ n, (s.w r).file ≠ some (some n)) := by
    intro tr s h
    induction h with
    | nil => exact Or.inr (by simp [Sys.start, WSt.init])
    | snoc h st ih =>
      rcases ih with ih | ih
      · exact Or.inl (List.mem_append_left _ ih)
      · have upd : ∀ (s : Sys) (r : Nat) (w : WSt), (∀ r, ∀ n, (s.w r).file ≠ some (some n)) →
            w.file = (s.w r).file → ∀ q, ∀ n, ((Function.update s.w r w) q).file ≠ some (some n) := by
          intro s r w h1 h2 q n
          by_cases hq : q = r
          · subst hq; rw [Function.update_self, h2]; exact h1 q n
          · rw [Function.update_of_ne hq]; exact h1 q n
        cases st with
        | openFile name k hp hb hw =>
          rename_i s0
          by_cases ho : (openResult c s0.file).isSome = true
          · rw [ho]; exact Or.inl (by simp)
          · refine Or.inr fun r n => ?_
            simp [ho]
        | getBcast r m rest hr hs hm hq =>
          refine Or.inr (upd _ _ _ ih ?_)
          unfold onBcast
          split
          · rfl
          · (repeat' split) <;> rfl
        | getSend r m rest hr hs hm hq =>
          refine Or.inr (upd _ _ _ ih ?_)
          unfold onSend
          split
          · rfl
          · (repeat' split) <;> rfl
        | work r text name memory old write hr hs hf hm ho hd => exact Or.inr (upd _ _ _ ih rfl)
        | workFails r text memory e hr hs hm hd => exact Or.inr (upd _ _ _ ih rfl)
        | ackDone r hr hs hq => exact Or.inr (upd _ _ _ ih rfl)
        | _ => exact Or.inr ih
  have h5 : ∀ (tr : List Ev) (s : Sys), CreateRun c eager b archive base orders file0 tr s →
      Ev.wrote r t ba ar memory w ∈ tr → Ev.opened true ∈ tr := by
    intro tr s h
    induction h with
    | nil => intro he; cases he
    | snoc h st ih =>
      intro he
      rcases List.mem_append.1 he with he | he
      · exact List.mem_append_left _ (ih he)
      · rw [List.mem_singleton] at he
        subst he
        cases st with
        | work _ _ _ _ old _ hr hs hf hm ho hd =>
          rcases h4 _ _ h with h | h
          · exact List.mem_append_left _ h
          · exact absurd hf (h _ _)
  cases run_inv' hL h with
  | pre i hc hq hi views len => exact absurd he (hq.noWrite _ _ _ _ _ _)
  | failed x hc hq hb' views hfile len => exact absurd he (hq.noWrite _ _ _ _ _ _)
  | post g pt hc hp =>
    obtain ⟨h1, h2, h3, _⟩ := hp.wrote r t ba ar memory w he
    exact ⟨h1, h2, h3, h5 tr s h he⟩

/-- **C26** When rank 0 has ended normally it has sent every worker exactly one shutdown; and a
worker never returns anything but 0 (not 7, "never got bucket size"). -/
theorem C26_everyone_told_to_stop (hL : Launch c b archive base orders)
    (h : CreateRun c eager b archive base orders file0 tr s) :
    (s.boss = .exit 0 → shutdowns tr = List.range' 1 (c.ranks - 1)) ∧
    (∀ r, c.worker r → ∀ n, (s.w r).stat = .ended n → n = 0) := by
  have hI := run_inv' hL h
  refine ⟨?_, ?_⟩
  · intro hb
    obtain ⟨g, hp⟩ := boss_exit0 hL rfl hI hb
    rw [hp.downs, hp.at_.2.2.1]
  · intro r hr n hs
    cases hI with
    | pre i hc hq hi views len =>
      have hv := views r hr
      generalize hl : s.loc r = l at hv
      rw [Sys.loc] at hl
      cases hv <;> simp only [Loc.mk.injEq] at hl <;> rw [hl.1] at hs <;> cases hs
    | failed x hc hq hb' views hfile len =>
      have hv := views r hr
      generalize hl : s.loc r = l at hv
      rw [Sys.loc] at hl
      cases hv <;> simp only [Loc.mk.injEq] at hl <;> rw [hl.1] at hs <;> first
        | (cases hs; done)
        | (simp at hs; omega)
    | post g pt hc hp =>
      have hv := hp.views r hr
      generalize hl : s.loc r = l at hv
      rw [Sys.loc] at hl
      generalize decide (r < g.pj) = p at hv
      generalize decide (r < g.xj) = x at hv
      generalize g.nn = N at hv
      generalize g.out r = o at hv
      generalize g.wr r = wr at hv
      cases hv <;> simp only [Loc.mk.injEq] at hl <;> rw [hl.1] at hs <;> first
        | (cases hs; done)
        | (simp at hs; omega)

/-! ### C28 -/

/-- **C28** If there already is a file with the archive's name, no run changes it, nothing is
carried out, and rank 0 does not end with success. -/
theorem C28_existing_archive_untouched (hL : Launch c b archive base orders) (f : Bytes)
    (h : CreateRun c eager b archive base orders (some f) tr s) :
    s.file = some f ∧ executed tr = [] ∧ s.boss ≠ .exit 0 := by
  have hI := run_inv' hL h
  have h3 : s.boss ≠ .exit 0 := by
    intro hb
    have := (C25_outcome hL h).1 hb
    simp [openResult] at this
  cases hI with
  | pre i hc hq hi views len => exact ⟨hq.file, (quiet_empty hq).2.1, h3⟩
  | failed x hc hq hb' views hfile len => exact ⟨hq.file, (quiet_empty hq).2.1, h3⟩
  | post g pt hc hp => have := hp.fresh; cases this

/-- **C28** ... and every such run can only end with all processes ended, rank 0 with status 1. -/
theorem C28_refused (hL : Launch c b archive base orders) (hW : Workable c b base orders)
    (hr2 : 2 ≤ c.ranks) (f : Bytes) (h : CreateRun c true b archive base orders (some f) tr s)
    (hs : Stuck c s) : Finished c 1 s := by
  rcases C25_no_deadlock hL hW hr2 h with h0 | h1 | ⟨e, s', hst⟩
  · exact absurd h0.1 (C28_existing_archive_untouched hL f h).2.2
  · exact h1
  · exact absurd hst.eager (hs e s')

/-- What is in a new archive is exactly what the workers wrote. -/
theorem C28_new_archive_is_the_writes (hL : Launch c b archive base orders)
    (h : CreateRun c eager b archive base orders file0 tr s) (hb : s.boss = .exit 0) :
    s.file = some (writeAll (writes tr)) := by
  obtain ⟨g, hp⟩ := boss_exit0 hL rfl (run_inv' hL h) hb
  exact hp.file

end

/-! ### C40 -/

/-- The instruction letter of a message as received, if it has one. -/
def letter (m : Bytes) : Option UInt8 := (recvMsg m).head?

/-- **C40** In broadcast mode, messages whose letters are not A, U, N or X leave the worker as it was,
however many there are. -/
theorem C40_unknown_bcast_ignored (w : WSt) (ms : List Bytes)
    (h : ∀ m ∈ ms, letter m ∉ [some 65, some 85, some 78, some 88]) : ms.foldl onBcast w = w := by
  induction ms with
  | nil => rfl
  | cons m ms ih =>
    have h1 : onBcast w m = w := by
      have := h m (by simp)
      unfold onBcast
      unfold letter at this
      split
      · rfl
      · rename_i c rest heq
        rw [heq] at this
        simp at this
        simp [this]
    rw [List.foldl_cons, h1]
    exact ih (fun m hm => h m (by simp [hm]))

/-- **C40** In individual mode, messages whose letters are not C, P, B or X leave the worker as it
was, however many there are. -/
theorem C40_unknown_send_ignored (w : WSt) (ms : List Bytes)
    (h : ∀ m ∈ ms, letter m ∉ [some 67, some 80, some 66, some 88]) : ms.foldl onSend w = w := by
  induction ms with
  | nil => rfl
  | cons m ms ih =>
    have h1 : onSend w m = w := by
      have := h m (by simp)
      unfold onSend
      unfold letter at this
      split
      · rfl
      · rename_i c rest heq
        rw [heq] at this
        simp at this
        simp [this]
    rw [List.foldl_cons, h1]
    exact ih (fun m hm => h m (by simp [hm]))

/-- **C40** A waiting worker returns 0 exactly when the letter is X; it returns anything else only
when it gets a bundle without having a bucket size. -/
theorem C40_only_X_ends (w : WSt) (m : Bytes) (hw : w.stat = .wait) (n : Nat) :
    ((onBcast w m).stat = .ended n ↔ letter m = some 88 ∧ n = 0) ∧
    ((onSend w m).stat = .ended n ↔
      (letter m = some 88 ∧ n = 0) ∨ (letter m = some 67 ∧ w.bucket = 0 ∧ n = 7)) := by
  constructor
  · unfold onBcast letter
    split
    · rename_i heq; rw [heq, hw]; simp
    · rename_i c rest heq
      rw [heq]
      simp only [List.head?_cons, Option.some.injEq]
      by_cases h1 : c = 65
      · simp [h1]
      · by_cases h2 : c = 85
        · simp [h2]; split <;> simp [hw]
        · by_cases h3 : c = 78
          · simp [h3, hw]
          · by_cases h4 : c = 88
            · simp [h4]; exact eq_comm
            · simp [h1, h2, h3, h4, hw]
  · unfold onSend letter
    split
    · rename_i heq; rw [heq, hw]; simp
    · rename_i c rest heq
      rw [heq]
      simp only [List.head?_cons, Option.some.injEq]
      by_cases h1 : c = 67
      · by_cases hb : w.bucket = 0
        · simp [h1, hb]; exact eq_comm
        · simp [h1, hb]
      · by_cases h2 : c = 80
        · simp [h2, hw]
        · by_cases h3 : c = 66
          · simp [h3, hw]
          · by_cases h4 : c = 88
            · simp [h4]; exact eq_comm
            · simp [h1, h2, h3, h4, hw]

/-- **C40** Which settings an instruction can change: bucket size only by U, mode only by N and B,
base path only by P, and the archive by none (only by the open that A starts). -/
theorem C40_settings_change_only_as_told (w : WSt) (m : Bytes) :
    (letter m ≠ some 85 → (onBcast w m).bucket = w.bucket) ∧
    (letter m ≠ some 78 → (onBcast w m).mode = w.mode) ∧
    (onBcast w m).base = w.base ∧ (onBcast w m).file = w.file ∧
    (onSend w m).bucket = w.bucket ∧ (onSend w m).file = w.file ∧
    (letter m ≠ some 80 → (onSend w m).base = w.base) ∧
    (letter m ≠ some 66 → (onSend w m).mode = w.mode) := by
  unfold onBcast onSend letter
  cases recvMsg m with
  | nil => simp
  | cons c rest =>
    simp only [List.head?_cons, ne_eq, Option.some.injEq]
    refine ⟨?_, ?_, ?_, ?_, ?_, ?_, ?_, ?_⟩ <;> intros <;> (repeat' split) <;> first
      | rfl
      | contradiction

end Parfu.Props
